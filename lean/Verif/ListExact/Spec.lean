import Verif.Linked.List
/-!
# The linked list in all histories, without a heap

`Append` works at the node it appended last. That node may be anywhere in the list, or gone. Apart from the elements,
the only things that matter are where it is, what the counter says, and which node the pool hands out.
-/
namespace Verif.ListExact
open Verif.Linked Verif.Linked.LList

/-- Where the node is that was appended last. -/
inductive Last where
  /-- Nothing was ever appended. -/
  | none
  /-- It is element number `k`. -/
  | at (k : Nat)
  /-- It is no longer in the list; number `j` in the pool, if it is there. -/
  | gone (j : Option Nat)
  deriving DecidableEq

/-- The elements, the node that was appended last, the counter and the size of the pool. -/
structure X (T : Type) where
  elems : List T
  last : Last
  len : Int
  pool : Nat

variable {T : Type}

/-- The pool hands out a node. The first result says whether it is the one that was appended last. -/
def take (x : X T) : Option Nat → Bool × X T
  | some i =>
    if i < x.pool then
      match x.last with
      | .gone (some j) =>
        if i = j then (true, { x with last := .gone none, pool := x.pool - 1 })
        else (false, { x with last := .gone (some (if i < j then j - 1 else j)), pool := x.pool - 1 })
      | _ => (false, { x with pool := x.pool - 1 })
    else (false, x)
  | none => (false, x)

/-- An element came in at position `i`. -/
def Last.inserted (i : Nat) : Last → Last
  | .at k => .at (if i ≤ k then k + 1 else k)
  | p => p

/-- Element number `i` left for the pool. -/
def Last.removed (i : Nat) : Last → Last
  | .at k => if k = i then .gone (some 0) else .at (if i < k then k - 1 else k)
  | .gone (some j) => .gone (some (j + 1))
  | p => p

/-- The new node is put behind the one that was appended last: all that followed it there is lost. -/
def behind (x : X T) (v : T) : X T := match x.last with
  | .none => x
  | .at k => { x with elems := x.elems.take (k + 1) ++ [v], last := .at (k + 1) }
  | .gone _ => { x with last := .gone none }

/-- One call. -/
def exactStep (x : X T) : Op T → X T × Res T
  | .append v c =>
    let x := { (take x c).2 with len := x.len + 1 }
    match x.last with
    | .none => ({ x with elems := [v], last := .at 0 }, .unit)
    | _ => (behind x v, .unit)
  | .insert i v c =>
    let y := { (take x c).2 with len := x.len + 1 }
    if i ≠ 0 ∧ i = x.len + 1 then
      match x.last with
      | .none => (y, .panic)
      | _ => (behind y v, .unit)
    else if 0 ≤ i ∧ i ≤ x.elems.length then
      ({ y with elems := x.elems.insertIdx i.toNat v,
                last := if (take x c).1 then .at i.toNat else y.last.inserted i.toNat }, .unit)
    else (y, .unit)
  | .remove i =>
    if 0 ≤ i ∧ i < x.elems.length then
      (⟨x.elems.eraseIdx i.toNat, x.last.removed i.toNat, x.len - 1, x.pool + 1⟩, elem x.elems i)
    else ({ x with len := x.len - 1 }, .none)
  | .at i => (x, elem x.elems i)
  | .iterate f => (x, .vals (visited f [] x.elems))
  | .len => (x, .num x.len)

/-- A history. -/
def exactRun (x : X T) : List (Op T) → List (Res T)
  | [] => []
  | op :: ops => (exactStep x op).2 :: exactRun (exactStep x op).1 ops

/-- An empty list. -/
def empty : X T := ⟨[], .none, 0, 0⟩

end Verif.ListExact
