import Verif.SliceAll.Spec
import Verif.SliceSide.Model
/-!
# Lists side by side
-/
namespace Verif.SliceSide
open Verif.Go Verif.Slicex Verif.SliceAll

variable {T : Type} [Inhabited T]

/-- What a command does to a family of lists: it concerns the one it names and leaves the others alone. -/
def Does (lim : Nat) (ls : Nat → List T) (cmd : Cmd T) (r : Res T) (ls' : Nat → List T) : Prop :=
  match cmd with
  | .call i op => SliceAll.Does lim (ls i) op (ls' i) r ∧ ∀ j, j ≠ i → ls' j = ls j
  | .new i vs => ls' i = vs ∧ r = .done ∧ ∀ j, j ≠ i → ls' j = ls j
  | .copy i k => ls' i = ls k ∧ r = .done ∧ ∀ j, j ≠ i → ls' j = ls j

  | .newOf i k => ls' i = ls k ∧ r = .done ∧ ∀ j, j ≠ i → ls' j = ls j
  | .spliceFrom i a b k => ls' i = spliceSpec (ls i) a b (ls k) ∧ r = .done ∧ ∀ j, j ≠ i → ls' j = ls j

/-- A run on the lists. -/
inductive Lists (lim : Nat) : (Nat → List T) → List (Cmd T × Res T) → (Nat → List T) → Prop
  | nil (ls : Nat → List T) : Lists lim ls [] ls
  | cons {ls ls' ls'' : Nat → List T} {cmd : Cmd T} {r : Res T} {t : List (Cmd T × Res T)} :
      Does lim ls cmd r ls' → Lists lim ls' t ls'' → Lists lim ls ((cmd, r) :: t) ls''

/-- What the variables show. -/
def shown (w : World T) : Nat → List T := fun i => elems w.h (w.s i)

end Verif.SliceSide
