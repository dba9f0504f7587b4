import Verif.Skl.Refine
/-!
# An iterator while the map is set and deleted at will

Other than in C05, the keys that the iterator stands on may be deleted, and the keys after it too.
-/
namespace Verif.SklWeak
open Verif.Go Verif.MapSpec Verif.Skl

section
variable {K V : Type} [GoOrdered K] [LawfulOrdered K] [DecidableEq K] [Inhabited K] [Inhabited V]

/-- What `Next` gave, and what had been done to the map since the iteration began when it did. -/
structure Given (K V : Type) where
  pre : List (Op K V)
  key : K
  val : V

/-- An iteration that began at position `p` of the map with history `hist`, after the updates `ops` (`Set` sklmapx.go:91-94, `Del`
sklmapx.go:96-99, in any order with `Next`, sklmapx.go:213-225) with `out` given so far. It has not come to the end. -/
inductive Iterated (s : BitVec 64) (hist : List (Op K V)) (p : Pos K) : List (Op K V) → World K V → Iter → List (Given K V) → Prop
  | start {w it} : Reach s hist w p it → p ≠ .done → Iterated s hist p [] w it []
  | op {ops w it out o w'} : Iterated s hist p ops w it out → (∀ s', o ≠ .clear s') → Skl.step w o = .ret w' →
      Iterated s hist p (ops ++ [o]) w' it out
  | next {ops w it out it' k v} : Iterated s hist p ops w it out → Skl.next w it = .ret (it', some (k, v)) →
      Iterated s hist p ops w it' (out ++ [⟨ops, k, v⟩])

omit [GoOrdered K] [LawfulOrdered K] [Inhabited K] [Inhabited V] in
/-- `k` had the value `v` at some time since the iteration began. -/
def Was (hist ops : List (Op K V)) (k : K) (v : V) : Prop := ∃ pre, pre <+: ops ∧ lookup (hist ++ pre) k = some v

omit [GoOrdered K] [LawfulOrdered K] [Inhabited K] [Inhabited V] in
/-- `k` has been in the map ever since the iteration began. -/
def Always (hist ops : List (Op K V)) (k : K) : Prop := ∀ pre, pre <+: ops → (lookup (hist ++ pre) k).isSome

/-- The keys that are set. -/
def setKeys : List (Op K V) → List K
  | [] => []
  | .set k _ :: ops => k :: setKeys ops
  | _ :: ops => setKeys ops

end
end Verif.SklWeak
