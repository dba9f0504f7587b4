import Verif.SliceMod.Model
/-!
# What one expects of a loop over a slice that the loop's body changes
-/
namespace Verif.SliceMod
open Verif.Go

/-- One call of the body: what it was given, the calls it made, what it returned. -/
structure Visit (T : Type) where
  index : Nat
  value : T
  ops : List (MOp T)
  ans : Bool

variable {T σ : Type} [Inhabited T]

/-- A callback that keeps a log. -/
def logged (f : Callback σ T) : Callback (σ × List (Visit T)) T := fun x w k v =>
  ((( f x.1 w k v).1, x.2 ++ [⟨k, v, (f x.1 w k v).2.1, (f x.1 w k v).2.2⟩]), (f x.1 w k v).2.1, (f x.1 w k v).2.2)

/-- The log of a loop over the elements `vs`: the calls are for the elements in order, with their indices, until one returns something
that ends the loop, or to the end. -/
structure GoodLog (brk : Bool → Bool) (vs : List T) (l : List (Visit T)) : Prop where
  values : l.map Visit.value = vs.take l.length
  indices : l.map Visit.index = List.range l.length
  stops : ∀ l₁ e l₂, l = l₁ ++ e :: l₂ → brk e.ans = true → l₂ = []
  complete : l.length = vs.length ∨ ∃ e ∈ l, brk e.ans = true

/-- All calls made by the body. -/
def updates (l : List (Visit T)) : List (MOp T) := l.flatMap Visit.ops

end Verif.SliceMod
