import Verif.Slicex.Spec
import Verif.Slicex.Model
/-!
# A slice as a list: what every call does and shows

`Does` and `Panics` are the reading of the methods of `dsx/slicex/slicex.go` on a list; nothing in them
speaks of memory, capacity or growth.
-/
namespace Verif.SliceAll
open Verif.Go Verif.Slicex

/-- A call of a method of `*Slice[T]`, arguments given one by one (`Splice` and `Expand` get a fresh
variadic slice). Callbacks `f` and the rendering `fmt` are functions. -/
inductive Op (T : Type) where
  | set (i : Int) (v : T)
  | get (i : Int)
  | slice (i j : Int)
  | splice (i j : Int) (vs : List T)
  | expand (i : Int) (vs : List T)
  | insert (i : Int) (v : T)
  | cut (i j : Int)
  | delete (i : Int)
  | push (v : T)
  | pop
  | unShift (v : T)
  | shift
  | deleteReplace (i : Int)
  | reverse
  | rotate (n : Int)
  | shuffle
  | filter (f : T → Bool)
  | rep (n : Int)
  | extend (n : Int)
  | clear
  | copy
  | split (ns : List Int)
  | batch (n : Int)
  | join (fmt : T → String) (sep : String)
  | indexOf (f : T → Bool)
  | contains (f : T → Bool)
  | each
  | forEach
  | len
  | finalize

/-- What a call shows its caller: a result, or the values its callback was given. -/
inductive Res (T : Type) where
  | done
  | val (v : T)
  | num (n : Int)
  | yes (b : Bool)
  | list (l : List T)
  | pairs (l : List (Nat × T))
  | lists (l : List (List T))
  | str (s : String)

variable {T : Type} [Inhabited T]

/-- The calls that panic: the documented ones of `C27`, with `lim` the largest count `make` accepts. -/
def Panics (lim : Nat) (l : List T) : Op T → Prop
  | .deleteReplace i => l = [] ∨ (l.length : Int) ≤ i
  | .rep n => (l.length : Int) * n < 0 ∨ (lim : Int) < l.length * n
  | .extend n => (lim : Int) < n
  | _ => False

/-- What a call that does not panic makes of list `l`, and what it shows. Only `Shuffle` has a choice. -/
def Effect (l : List T) : Op T → List T → Res T → Prop
  | .set i v, l', r => l' = l.set (bound i (l.length - 1)) v ∧ r = .done
  | .get i, l', r => l' = l ∧ r = .val (l.getD (bound i (l.length - 1)) default)
  | .slice i j, l', r => r = .done ∧
      l' = (l.take (hi i (if j < 0 then l.length + j else j) l.length)).drop
        (lo i (if j < 0 then l.length + j else j) l.length)
  | .splice i j vs, l', r => l' = spliceSpec l i j vs ∧ r = .done
  | .expand i vs, l', r => l' = l.take (bound i l.length) ++ vs ++ l.drop (bound i l.length) ∧ r = .done
  | .insert i v, l', r => l' = l.insertIdx (bound i l.length) v ∧ r = .done
  | .cut i j, l', r => l' = l.take (lo i j l.length) ++ l.drop (hi i j l.length) ∧ r = .done
  | .delete i, l', r => l' = deleteSpec l i ∧ r = .done
  | .push v, l', r => l' = l ++ [v] ∧ r = .done
  | .pop, l', r => l' = l.dropLast ∧ r = .val (l.getLast?.getD default)
  | .unShift v, l', r => l' = v :: l ∧ r = .done
  | .shift, l', r => l' = l.tail ∧ r = .val (l.head?.getD default)
  | .deleteReplace i, l', r => l' = (l.set (max i 0).toNat (l.getLast?.getD default)).dropLast ∧ r = .done
  | .reverse, l', r => l' = l.reverse ∧ r = .done
  | .rotate n, l', r => l' = l.rotate (n % (l.length : Int)).toNat ∧ r = .done
  | .shuffle, l', r => l'.Perm l ∧ r = .done
  | .filter f, l', r => l' = l.filter f ∧ r = .done
  | .rep n, l', r => l' = timesSpec l n.toNat ∧ r = .done
  | .extend n, l', r => l' = l ++ List.replicate n.toNat default ∧ r = .done
  | .clear, l', r => l' = [] ∧ r = .done
  | .copy, l', r => l' = l ∧ r = .list l
  | .split ns, l', r => l' = l ∧ r = .lists (pieces l (ns.map Int.toNat))
  | .batch n, l', r => l' = l ∧ ∃ ps, r = .lists ps ∧ ps.flatten = l ∧
      (∀ p ∈ ps, 0 < p.length ∧ p.length ≤ (max n 1).toNat) ∧ (∀ p ∈ ps.dropLast, p.length = (max n 1).toNat)
  | .join fmt sep, l', r => l' = l ∧ r = .str (sepBy sep (l.map fmt))
  | .indexOf f, l', r => l' = l ∧ r = .num (match l.findIdx? f with | some k => k | none => -1)
  | .contains f, l', r => l' = l ∧ r = .yes (l.any f)
  | .each, l', r => l' = l ∧ r = .list l
  | .forEach, l', r => l' = l ∧ r = .pairs (l.zipIdx.map Prod.swap)
  | .len, l', r => l' = l ∧ r = .num l.length
  | .finalize, l', r => l' = l ∧ r = .list l

/-- A call that returns. -/
def Does (lim : Nat) (l : List T) (op : Op T) (l' : List T) (r : Res T) : Prop :=
  ¬ Panics lim l op ∧ Effect l op l' r

/-- The integer arguments are Go `int`s. -/
def Op.Typed : Op T → Prop
  | .set i _ | .get i | .expand i _ | .insert i _ | .delete i | .deleteReplace i | .rotate i | .rep i | .extend i
  | .batch i => InInt64 i
  | .slice i j | .splice i j _ | .cut i j => InInt64 i ∧ InInt64 j
  | .split ns => ∀ n ∈ ns, InInt64 n
  | _ => True

/-- The arguments for which a method does not overflow an `int` on a slice of `n` elements. -/
def Op.Fits (n : Nat) : Op T → Prop
  | .delete i => i ≠ 2 ^ 63 - 1
  | .rotate k => k ≠ -2 ^ 63
  | .rep k => InInt64 (n * k)
  | .split ns => (∀ k ∈ ns, 0 ≤ k) ∧ ((∀ k ∈ ns, k + n < 2 ^ 63) ∨ ns.sum < 2 ^ 63)
  | _ => True

/-- A history on a list: calls with what they showed. -/
inductive Seq (lim : Nat) : List T → List (Op T × Res T) → List T → Prop
  | nil (l : List T) : Seq lim l [] l
  | cons {l l' l'' : List T} {op : Op T} {r : Res T} {t : List (Op T × Res T)} :
      Does lim l op l' r → Seq lim l' t l'' → Seq lim l ((op, r) :: t) l''

end Verif.SliceAll
