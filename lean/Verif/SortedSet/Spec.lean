import Verif.SortedSet.Model
import Mathlib.Data.Multiset.AddSub
/-!
# A collection, in which elements may occur several times
-/
namespace Verif.SortedSet

variable {T : Type} [LinearOrder T]

/-- What an operation makes of a collection. -/
def after (m : Multiset T) : Op T → Multiset T
  | .add x _ _ => x ::ₘ m
  | .addOnce x _ _ => if x ∈ m then m else x ::ₘ m
  | .remove x _ _ => m.erase x
  | .has _ => m

/-- After a history. -/
def afterAll (m : Multiset T) (ops : List (Op T)) : Multiset T := ops.foldl after m

/-- What the operations find: whether their element was there. -/
def answers (m : Multiset T) : List (Op T) → List Bool
  | [] => []
  | op :: ops => decide (op.elem ∈ m) :: answers (after m op) ops

end Verif.SortedSet
