import Verif.Go.Basic
import Verif.Skl.Spec
/-!
# Specification: a list of entries kept in place by comparisons that may be inconsistent

Nothing is assumed about `<` and `==`: NaN, for instance, is neither below, nor above, nor equal to any number.
-/
namespace Verif.SklAny
open Verif.Go Verif.MapSpec

variable {K V : Type} [GoOrdered K]

/-- A place for `k` between `A` and `B`: the entry before it is below `k`, the entry after it is not. -/
def Place (A : List (K × V)) (k : K) (B : List (K × V)) : Prop :=
  (∀ a ∈ A.getLast?, GoOrdered.lt a.1 k = true) ∧ ∀ b ∈ B.head?, GoOrdered.lt b.1 k = false

/-- What an update may do to the entries. Everything happens at one place of the key; all other entries stay as
they are and where they are. -/
inductive Change : List (K × V) → Op K V → List (K × V) → Prop
  | add {A B k v} : Place A k B → (∀ b ∈ B.head?, GoOrdered.eq b.1 k = false) →
      Change (A ++ B) (.set k v) (A ++ (k, v) :: B)
  | replace {A B k k' u v} : Place A k ((k', u) :: B) → GoOrdered.eq k' k = true →
      Change (A ++ (k', u) :: B) (.set k v) (A ++ (k', v) :: B)
  | remove {A B k k' u} : Place A k ((k', u) :: B) → GoOrdered.eq k' k = true →
      Change (A ++ (k', u) :: B) (.del k) (A ++ B)
  | miss {A B k} : Place A k B → (∀ b ∈ B.head?, GoOrdered.eq b.1 k = false) → Change (A ++ B) (.del k) (A ++ B)
  | clear {l s} : Change l (.clear s) []

/-- The changes of a history, oldest first. -/
inductive Changes : List (K × V) → List (Op K V) → List (K × V) → Prop
  | nil {l} : Changes l [] l
  | cons {l l' l'' op hist} : Change l op l' → Changes l' hist l'' → Changes l (op :: hist) l''

/-- The key an update is about. -/
def Touches (k : K) : Op K V → Prop
  | .set k' _ => GoOrdered.eq k k' = true
  | .del k' => GoOrdered.eq k k' = true
  | .clear _ => True

end Verif.SklAny
