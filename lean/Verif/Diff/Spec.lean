import Verif.Diff.Model
/-!
# What a difference of times is
-/
namespace Verif.Diff

/-- Nanoseconds since 0001-01-01. -/
def Reading.nanos (r : Reading) : Int := r.sec * 1000000000 + r.nsec

/-- The nearest `time.Duration`. -/
def sat (x : Int) : Int := max (-2 ^ 63) (min (2 ^ 63 - 1) x)

/-- The difference of two readings: on the monotonic clock if both have it, else on the wall clock. -/
def gap (t u : Reading) : Int :=
  match t.mono, u.mono with
  | some a, some b => sat (a - b)
  | _, _ => sat (t.nanos - u.nanos)

/-- A reading a clock can give: nanoseconds below a second, within 146 thousand million years of the
epoch (Go's `time.Now` is within 292 years of it), monotonic part an `int64`. -/
def Sane (r : Reading) : Prop :=
  -2 ^ 62 ≤ r.sec ∧ r.sec < 2 ^ 62 ∧ 0 ≤ r.nsec ∧ r.nsec < 1000000000 ∧ ∀ m, r.mono = some m → -2 ^ 63 ≤ m ∧ m < 2 ^ 63

/-- The reading of the last `Start` (of the last `End`) in a history, the zero time if there is none. -/
def lastStart (h : List Call) : Reading :=
  ((h.reverse.filterMap fun | .start r => some r | .fin _ => none).head?).getD ⟨0, 0, none⟩

def lastEnd (h : List Call) : Reading :=
  ((h.reverse.filterMap fun | .fin r => some r | .start _ => none).head?).getD ⟨0, 0, none⟩

end Verif.Diff
