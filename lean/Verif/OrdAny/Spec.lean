import Verif.Go.Basic
import Verif.Skl.Spec
/-!
# Specification of a map whose key comparison need not be reflexive

Like `Verif.MapSpec.lookup`, but keys are the same when `==` says so. NaN is not the same as itself, so a map never
finds it.
-/
namespace Verif.OrdAny
open Verif.Go Verif.MapSpec

variable {K V : Type} [GoOrdered K]

/-- What Go promises of `==` on ordered types, floats included. It need not be reflexive. -/
structure PartialEq (K : Type) [GoOrdered K] : Prop where
  symm : ∀ {a b : K}, GoOrdered.eq a b = true → GoOrdered.eq b a = true
  trans : ∀ {a b c : K}, GoOrdered.eq a b = true → GoOrdered.eq b c = true → GoOrdered.eq a c = true

/-- The value of `k` after the history: the latest `set` of an equal key wins unless a `del` of an equal key or a
`clear` came after it. -/
def lookupEq (hist : List (Op K V)) (k : K) : Option V :=
  hist.foldl (fun r op =>
    match op with
    | .set k' v => if GoOrdered.eq k k' then some v else r
    | .del k' => if GoOrdered.eq k k' then none else r
    | .clear _ => none) none

end Verif.OrdAny
