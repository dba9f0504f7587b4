import Verif.Trunc.Model
/-!
# Model of `timex/diffx/diffx.go`

Over the `time` package's `Sub` (Go 1.19). The clock is any sequence of readings. `timex.Now`
(timex.go:5-7) keeps the monotonic part of `time.Now`; the zero `time.Time` has none.
-/
namespace Verif.Diff
open Verif.Go
open Verif.Trunc (Time)

/-- A `time.Time`: seconds since 0001-01-01, nanoseconds, monotonic reading (`ext` when present). -/
structure Reading where
  sec : Int
  nsec : Int
  mono : Option Int
  deriving DecidableEq

/-- diffx.go:9-12 `Differ`. -/
structure Differ where
  start : Reading
  fin : Reading

/-- The zero `time.Time`. -/
def zero : Reading := ⟨0, 0, none⟩

/-- diffx.go:14-16 `New`. -/
def new : Differ := ⟨zero, zero⟩

/-- diffx.go:18-20 `Start`, the clock reading `now`. -/
def Differ.startAt (d : Differ) (now : Reading) : Differ := { d with start := now }

/-- diffx.go:22-24 `End`. -/
def Differ.endAt (d : Differ) (now : Reading) : Differ := { d with fin := now }

/-- time.go `Sub` where both have monotonic readings. -/
def subMono (te ue : Int) : Int :=
  let d := wrap64 (te - ue)
  if d < 0 ∧ te > ue then 2 ^ 63 - 1
  else if d > 0 ∧ te < ue then -2 ^ 63
  else d

/-- time.go `Sub` on wall clocks: compute the difference, add it back, compare. -/
def subWall (t u : Time) : Int :=
  let d := wrap64 (wrap64 (wrap64 (t.ext - u.ext) * 1000000000) + (t.nsec - u.nsec))
  let back := u.add d
  if back.ext = t.ext ∧ back.nsec = t.nsec then d
  else if t.ext < u.ext ∨ (t.ext = u.ext ∧ t.nsec < u.nsec) then -2 ^ 63
  else 2 ^ 63 - 1

/-- time.go `Sub`. -/
def sub (t u : Reading) : Int :=
  match t.mono, u.mono with
  | some te, some ue => subMono te ue
  | _, _ => subWall ⟨t.sec, t.nsec⟩ ⟨u.sec, u.nsec⟩

/-- diffx.go:26-28 `GetDiff`. -/
def Differ.getDiff (d : Differ) : Int := sub d.fin d.start

/-- diffx.go:30-32 `GetStart`. -/
def Differ.getStart (d : Differ) : Reading := d.start

/-- diffx.go:34-36 `GetEnd`. -/
def Differ.getEnd (d : Differ) : Reading := d.fin

/-- A call and the reading of the clock it took. -/
inductive Call where
  | start (now : Reading)
  | fin (now : Reading)

def Differ.run (d : Differ) : List Call → Differ
  | [] => d
  | .start now :: cs => (d.startAt now).run cs
  | .fin now :: cs => (d.endAt now).run cs

end Verif.Diff
