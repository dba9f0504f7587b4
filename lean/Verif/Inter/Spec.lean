import Verif.Inter.Model
/-!
# Agreement of intervals
-/
namespace Verif.Inter
open Verif.Go

def Interval.low (i : Interval) : Int := i.off - i.band
def Interval.up (i : Interval) : Int := i.off + i.band

/-- A non-negative band and bounds that are `int64`s. -/
def Sane (i : Interval) : Prop := 0 ≤ i.band ∧ InInt64 i.low ∧ InInt64 i.up

/-- How many intervals contain `x`. -/
def containing (is : List Interval) (x : Int) : Nat := is.countP fun i => decide (i.low ≤ x ∧ x ≤ i.up)

example : containing [⟨0, 10⟩, ⟨1, 8⟩, ⟨100, 3⟩, ⟨2, 6⟩] (-4) = 3 ∧ containing [⟨0, 10⟩, ⟨1, 8⟩, ⟨100, 3⟩, ⟨2, 6⟩] 9 = 2 := by decide

/-- How many midpoints are outside `[a, b]`. -/
def outside (is : List Interval) (a b : Int) : Nat := is.countP fun i => decide (i.off < a ∨ b < i.off)

/-- The lower bound of the agreement of all the intervals is `a`, the upper is `b`. -/
def Agreement (is : List Interval) (a b : Int) : Prop :=
  (∀ i ∈ is, i.low ≤ a ∧ b ≤ i.up) ∧ (∃ i ∈ is, i.low = a) ∧ (∃ i ∈ is, i.up = b)

end Verif.Inter
