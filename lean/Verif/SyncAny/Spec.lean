import Verif.SyncAny.Model
/-!
# Specification

Keys are the same when `==` says so. What `Set` stored under a key that does not equal itself can never be reached
by key again.
-/
namespace Verif.SyncAny

variable {K V : Type} (eq : K → K → Bool)

/-- The value of `k` after the history: the latest `Set` of an equal key wins unless a `Delete` of an equal key or a
`Clear` came after it. -/
def lookup (hist : List (Op K V)) (k : K) : Option V :=
  hist.foldl (fun r op =>
    match op with
    | .set k' v => if eq k k' then some v else r
    | .delete k' => if eq k k' then none else r
    | .clear => none) none

/-- What was stored since the last `Clear` under keys that do not equal themselves, oldest first. -/
def unreachable (hist : List (Op K V)) : List (K × V) :=
  hist.foldl (fun r op =>
    match op with
    | .set k v => if eq k k then r else r ++ [(k, v)]
    | .delete _ => r
    | .clear => []) []

/-- What Go promises of `==`. It need not be reflexive. -/
structure PartialEq : Prop where
  symm : ∀ {a b : K}, eq a b = true → eq b a = true
  trans : ∀ {a b c : K}, eq a b = true → eq b c = true → eq a c = true

end Verif.SyncAny
