import Verif.Inter.Spec
/-!
# Right and wrong clocks

Each interval is what a clock says about the time: midpoint and confidence band. A clock is right if the true time is in its
interval.
-/
namespace Verif.InterTrue
open Verif.Inter

/-- The clock is right about the time `t`. -/
def Tells (i : Interval) (t : Int) : Prop := i.low ≤ t ∧ t ≤ i.up

instance (i : Interval) (t : Int) : Decidable (Tells i t) := inferInstanceAs (Decidable (_ ∧ _))

/-- How many are right. -/
def right (is : List Interval) (t : Int) : Nat := is.countP fun i => decide (Tells i t)

/-- How many have `t` strictly inside. -/
def inside (is : List Interval) (t : Int) : Nat := is.countP fun i => decide (i.low < t ∧ t < i.up)

/-- More than half are right. -/
def Majority (is : List Interval) (t : Int) : Prop := is.length < 2 * right is t

instance (is : List Interval) (t : Int) : Decidable (Majority is t) := inferInstanceAs (Decidable (_ < _))

/-- The wrong clocks have no time in common with the right ones. -/
def Apart (is : List Interval) (t : Int) : Prop :=
  ∀ i ∈ is, ∀ j ∈ is, Tells i t → ¬ Tells j t → ∀ x, Tells i x → ¬ Tells j x

end Verif.InterTrue
