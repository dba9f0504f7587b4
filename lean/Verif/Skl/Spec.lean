/-!
# Specification of a key-value map, independent of any model

A history is a list of updates, oldest first. What the map holds after it is read off the history.
-/
namespace Verif.MapSpec

/-- The calls that change a map. `clear` carries the seed the cleared map is given, which the
specification ignores. -/
inductive Op (K V : Type) where
  | set (k : K) (v : V)
  | del (k : K)
  | clear (seed : BitVec 64)

/-- The value of `k` after the history: the latest `set k v` wins unless a `del k` or a `clear`
came after it. -/
def lookup {K V : Type} [DecidableEq K] (hist : List (Op K V)) (k : K) : Option V :=
  hist.foldl (fun r op =>
    match op with
    | .set k' v => if k = k' then some v else r
    | .del k' => if k = k' then none else r
    | .clear _ => none) none

/-- `ks` lists exactly the keys present after the history, each once. -/
def PresentKeys {K V : Type} [DecidableEq K] (hist : List (Op K V)) (ks : List K) : Prop :=
  ks.Nodup ∧ ∀ k, k ∈ ks ↔ (lookup hist k).isSome

/-- Words separated by single spaces. -/
def sepBySpace : List String → String
  | [] => ""
  | [x] => x
  | x :: y :: xs => x ++ " " ++ sepBySpace (y :: xs)

end Verif.MapSpec
