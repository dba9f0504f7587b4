import Verif.Slicex.Model
import Verif.Search.Model
/-!
# A slice kept in order with `searchx.Search`, `slicex.Insert` and `slicex.Delete`

The program of a user of the two packages. `g1` and `g2` are what `append` adds to the capacity (see
`Verif.Slicex.Model`).
-/
namespace Verif.SortedSet
open Verif.Go Verif.Slicex

/-- What a user does with the slice. -/
inductive Op (T : Type) where
  /-- `i, _ := Search(*s, x); s.Insert(i, x)` -/
  | add (x : T) (g1 g2 : Nat)
  /-- `if i, ok := Search(*s, x); !ok { s.Insert(i, x) }` -/
  | addOnce (x : T) (g1 g2 : Nat)
  /-- `if i, ok := Search(*s, x); ok { s.Delete(i) }` -/
  | remove (x : T) (g1 g2 : Nat)
  /-- `_, ok := Search(*s, x)` -/
  | has (x : T)

variable {T : Type} [LinearOrder T] [Inhabited T]

/-- The element an operation is about. -/
def Op.elem : Op T → T
  | .add x _ _ | .addOnce x _ _ | .remove x _ _ | .has x => x

/-- One operation: the new memory and slice, and what `Search` said. algox/searchx/searchx.go:8-18, dsx/slicex/slicex.go:69-79. -/
def step (w : Hp T × Sl) (op : Op T) : Outcome ((Hp T × Sl) × Bool) :=
  (Search.search (fun a b => decide (a < b)) (elems w.1 w.2) op.elem).bind fun (i, found) =>
    match op with
    | .add x g1 g2 => (insert w.1 g1 g2 w.2 i x).map (·, found)
    | .addOnce x g1 g2 => if found then .ret (w, found) else (insert w.1 g1 g2 w.2 i x).map (·, found)
    | .remove _ g1 g2 => if found then (delete w.1 g1 g2 w.2 i).map (·, found) else .ret (w, found)
    | .has _ => .ret (w, found)

/-- A history. -/
def run (w : Hp T × Sl) : List (Op T) → Outcome ((Hp T × Sl) × List Bool)
  | [] => .ret (w, [])
  | op :: ops => (step w op).bind fun (w', b) => (run w' ops).map fun (w'', bs) => (w'', b :: bs)

end Verif.SortedSet
