import Verif.CopyVal.Model
/-!
# Copies as values
-/
namespace Verif.CopyVal
open Verif.Go Verif.SliceC

variable {T : Type}

/-- A list after a call; of a stack the last element is the top. -/
def after (l : List T) : Meth T → List T
  | .stack o => (stackSpec l.reverse o).1.reverse
  | .list (.append v _) => l ++ [v]
  | .list (.insert i v _) => if 0 ≤ i ∧ i ≤ l.length then l.take i.toNat ++ v :: l.drop i.toNat else l ++ [v]
  | .list (.remove i) => if 0 ≤ i then l.eraseIdx i.toNat else l
  | .list _ => l

/-- What a call on the value `l` gives. -/
def Gives (l : List T) : Meth T → Res T → Prop
  | .stack o, r => r = (stackSpec l.reverse o).2
  | .list o, r => ListSpec l o (after l (.list o)) r

/-- The results when every variable has a value of its own and an assignment copies the value. -/
inductive Values : (Nat → List T) → List (Cmd T) → List (Res T) → Prop
  | nil {val} : Values val [] []
  | copy {val i j cs rs} : Values (upd val j (val i)) cs rs → Values val (.copy i j :: cs) (.unit :: rs)
  | call {val i m r cs rs} : Gives (val i) m r → Values (upd val i (after (val i) m)) cs rs → Values val (.call i m :: cs) (r :: rs)

/-- The first index that a call writes to, if it writes. -/
def writesAt (l : List T) : Meth T → Option Nat
  | .stack (.push _ _) => some l.length
  | .list (.append _ _) => some l.length
  | .list (.insert i _ _) => if 0 ≤ i ∧ i ≤ l.length then some i.toNat else some l.length
  | .list (.remove i) => if 0 ≤ i ∧ i + 1 < l.length then some i.toNat else none
  | _ => none

/-- `fam` says which variables are copies of each other, directly or not. Calls write only where no such variable has an element. -/
def Careful : (Nat → List T) → (Nat → Nat) → List (Cmd T) → Prop
  | _, _, [] => True
  | val, fam, .copy i j :: cs => Careful (upd val j (val i)) (upd fam j (fam i)) cs
  | val, fam, .call i m :: cs => (∀ p, writesAt (val i) m = some p → ∀ j, j ≠ i → fam j = fam i → (val j).length ≤ p) ∧
      Careful (upd val i (after (val i) m)) fam cs

/-- Indices are `int`s. -/
def CmdOk : Cmd T → Prop
  | .call _ (.list o) => OpOk o
  | _ => True

/-- **C162 (full statement).** A copy of a slice stack or list is independent of the original. -/
def C162_full : Prop := ∀ (T : Type) [Inhabited T] (h : Hp T) (cs : List (Cmd T)), (∀ c ∈ cs, CmdOk c) → (cs.length : Int) < 2 ^ 63 - 1 →
  Values (fun _ => []) cs (run (start h) cs)

end Verif.CopyVal
