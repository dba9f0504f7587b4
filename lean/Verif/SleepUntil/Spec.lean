import Verif.SleepUntil.Model
/-!
# Instants and clocks
-/
namespace Verif.SleepUntil
open Verif.Diff (Reading)

/-- Seconds from 0001-01-01 to 1970-01-01. -/
def epoch : Int := 719162 * 86400

/-- Nanoseconds since 1970-01-01. -/
def unixNanos (r : Reading) : Int := (r.sec - epoch) * 1000000000 + r.nsec

/-- What a `time.Time` can be: `int64` seconds, nanoseconds below a second, an `int64` monotonic reading if any. -/
def IsTime (r : Reading) : Prop :=
  -2 ^ 63 ≤ r.sec ∧ r.sec < 2 ^ 63 ∧ 0 ≤ r.nsec ∧ r.nsec < 1000000000 ∧ ∀ m, r.mono = some m → -2 ^ 63 ≤ m ∧ m < 2 ^ 63

/-- What the clock reads: between the years 1 and 146 thousand million. -/
def IsNow (r : Reading) : Prop := IsTime r ∧ 0 ≤ r.sec ∧ r.sec < 2 ^ 62

/-- The clock read `now`, and `back` when `e` nanoseconds have passed (and nobody has set it). -/
def Elapsed (now : Reading) (e : Int) (back : Reading) : Prop :=
  unixNanos back = unixNanos now + e ∧ back.mono = now.mono.map (· + e)

/-- How far the instant `t` is from `now`: on the monotonic clock if both have it. -/
def ahead (t now : Reading) : Int :=
  match t.mono, now.mono with
  | some a, some b => a - b
  | _, _ => unixNanos t - unixNanos now

/-- At `back` the instant `t` has come. -/
def Come (t back : Reading) : Prop := ahead t back ≤ 0

end Verif.SleepUntil
