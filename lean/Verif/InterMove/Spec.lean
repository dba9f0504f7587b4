import Verif.Inter.Spec
/-!
# Intervals seen on another clock

A clock with another zero (`d`), another unit (`c > 0`), or one that runs backwards (`c < 0`).
-/
namespace Verif.InterMove
open Verif.Inter

/-- The interval on the other clock. -/
def onClock (c d : Int) (i : Interval) : Interval := ⟨c * i.off + d, c.natAbs * i.band⟩

/-- The result `r'` is the result `r` read on the other clock. The bounds count only when an agreement is reported. -/
def SameResult (c d : Int) (r r' : Int × Int × Bool) : Prop :=
  r'.2.2 = r.2.2 ∧ (r.2.2 = true →
    (0 < c → r'.1 = c * r.1 + d ∧ r'.2.1 = c * r.2.1 + d) ∧ (c < 0 → r'.1 = c * r.2.1 + d ∧ r'.2.1 = c * r.1 + d))

example : SameResult 2 5 (3, 4, true) (11, 13, true) ∧ SameResult (-1) 0 (3, 4, true) (-4, -3, true) ∧ SameResult 1 7 (0, 0, false) (0, 1, false) := by
  unfold SameResult; decide

end Verif.InterMove
