import Verif.SklCost.Model
import Verif.Skl.Spec
/-!
# What one call may compare, in terms of the history of the map
-/
namespace Verif.SklCost
open Verif.Go Verif.MapSpec

variable {K V : Type} [GoOrdered K]

/-- The key, if it is compared by `<`. -/
def Ask.lessKey : Ask K → Option K
  | .less a => some a
  | .differ _ => none

/-- The keys compared by `<`. -/
def lessKeys (c : List (Ask K)) : List K := c.filterMap Ask.lessKey

/-- The comparisons `c` of a call with `k` are few. -/
structure Few [DecidableEq K] (hist : List (Op K V)) (k : K) (c : List (Ask K)) : Prop where
  /-- Only keys that are present are compared. -/
  present : ∀ a, (.less a ∈ c ∨ .differ a ∈ c) → (lookup hist a).isSome
  /-- Those smaller than `k` in increasing order, so each at most once. -/
  once : ((lessKeys c).filter fun a => GoOrdered.lt a k).Pairwise fun a b => GoOrdered.lt a b = true
  /-- The others at most sixteen times in all. -/
  levels : ((lessKeys c).filter fun a => !GoOrdered.lt a k).length ≤ 16
  /-- `!=` is used at most once. -/
  final : c.length ≤ (lessKeys c).length + 1
  /-- In all, at most seventeen comparisons more than there are smaller keys. -/
  total : ∀ ks, PresentKeys hist ks → c.length ≤ (ks.filter fun a => GoOrdered.lt a k).length + 17

end Verif.SklCost
