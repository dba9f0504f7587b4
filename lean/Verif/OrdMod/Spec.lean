import Verif.Go.Basic
import Verif.Skl.Spec
/-!
# What one expects of a loop over a map that the loop's body changes
-/
namespace Verif.OrdMod
open Verif.Go Verif.MapSpec

/-- One call of the body: the entry it was given, the updates it made, whether it said stop. -/
structure Visit (K V : Type) where
  key : K
  value : V
  ops : List (Op K V)
  stop : Bool

variable {K V : Type} [GoOrdered K] [DecidableEq K]

/-- All updates of a list of calls. -/
def updates (l : List (Visit K V)) : List (Op K V) := l.flatMap Visit.ops

/-- The log of a loop over a map with the given history. -/
structure GoodLog (hist : List (Op K V)) (l : List (Visit K V)) : Prop where
  /-- Every visited entry is in the map when it is visited. -/
  present : ∀ l₁ e l₂, l = l₁ ++ e :: l₂ → lookup (hist ++ updates l₁) e.key = some e.value
  /-- In ascending order. -/
  sorted : l.Pairwise (fun a b => GoOrdered.lt a.key b.key = true)
  /-- Nothing after stop. -/
  stops : ∀ l₁ e l₂, l = l₁ ++ e :: l₂ → e.stop = true → l₂ = []
  /-- An entry that was there at the start and that no call before it deleted is visited, unless the loop was stopped before it. -/
  complete : ∀ z, (lookup hist z).isSome → (∀ e ∈ l, GoOrdered.lt e.key z = true → .del z ∉ e.ops) →
    (∃ e ∈ l, e.key = z) ∨ ∃ e ∈ l, e.stop = true ∧ GoOrdered.lt e.key z = true
  /-- An entry ahead of the loop after a call that did not delete its own key, old or new, is visited, unless a later call deletes it
  or the loop is stopped. -/
  added : ∀ l₁ e l₂ z, l = l₁ ++ e :: l₂ → e.stop = false → .del e.key ∉ e.ops → GoOrdered.lt e.key z = true →
    (lookup (hist ++ updates (l₁ ++ [e])) z).isSome → (∀ e' ∈ l₂, GoOrdered.lt e'.key z = true → .del z ∉ e'.ops) →
    (∃ e' ∈ l₂, e'.key = z) ∨ ∃ e' ∈ l₂, e'.stop = true ∧ GoOrdered.lt e'.key z = true

end Verif.OrdMod
