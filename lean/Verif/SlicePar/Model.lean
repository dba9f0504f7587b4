import Verif.SliceAll.Model
import Verif.SliceParts.Spec
/-!
# Goroutines at work on the pieces of `Split` and `Batch`

Every goroutine has one piece and calls methods on it, at the same time as the others. A call is a program that reads and writes single
elements of the array (`Prog`); the steps of different goroutines interleave arbitrarily. Slice headers are variables of the goroutine,
and so is the temporary array that the inner `append` of `Splice` makes. The methods are those that add nothing, and `Push` where the
outer `append` finds room in the capacity; calls that make the slice move to a new array, `Finalize` (which hands out the slice), `Split`
and `Batch` of a piece are not in this model. Callbacks do not touch the array.
-/
namespace Verif.SlicePar
open Verif.Go Verif.Slicex Verif.SliceAll

variable {T α β : Type} [Inhabited T]

/-- Memory: the element at an index of an array. -/
abbrev Cells (T : Type) := Nat → Nat → T

/-- A program that reads and writes single elements. -/
inductive Prog (T α : Type) where
  | done (o : Outcome α)
  | read (a i : Nat) (k : T → Prog T α)
  | write (a i : Nat) (v : T) (k : Prog T α)

def Prog.bind : Prog T α → (α → Prog T β) → Prog T β
  | .done (.ret x), f => f x
  | .done .panic, _ => .done .panic
  | .done .hang, _ => .done .hang
  | .read a i k, f => .read a i fun v => (k v).bind f
  | .write a i v k, f => .write a i v (k.bind f)

/-- Writing one element. -/
def put (m : Cells T) (a i : Nat) (v : T) : Cells T := fun b j => if b = a ∧ j = i then v else m b j

/-! ## Methods, slicex.go:31-239 -/

/-- `s[i]`. -/
def indexP (s : Sl) (i : Int) : Prog T T :=
  if 0 ≤ i ∧ i < s.len then .read s.arr (s.off + i.toNat) fun v => .done (.ret v) else .done .panic

/-- `s[i] = v`. -/
def storeP (s : Sl) (i : Int) (v : T) : Prog T Unit :=
  if 0 ≤ i ∧ i < s.len then .write s.arr (s.off + i.toNat) v (.done (.ret ())) else .done .panic

/-- The elements from index `o` of array `a` on, `n` of them, read one after the other. -/
def loadP (a : Nat) : Nat → Nat → Prog T (List T)
  | _, 0 => .done (.ret [])
  | o, n + 1 => .read a o fun v => (loadP a (o + 1) n).bind fun vs => .done (.ret (v :: vs))

/-- Write elements from index `o` on. -/
def saveP (a : Nat) : Nat → List T → Prog T Unit
  | _, [] => .done (.ret ())
  | o, v :: vs => .write a o v (saveP a (o + 1) vs)

/-- slicex.go:117-119: `(*s)[i], (*s)[j] = (*s)[j], (*s)[i]`. -/
def swapP (s : Sl) (i j : Int) : Prog T Unit :=
  (indexP s j).bind fun vj => (indexP s i).bind fun vi => (storeP s i vj).bind fun _ => storeP s j vi

/-- slicex.go:73-75 `Cut`, `append((*s)[:i], append([]T(nil), (*s)[j:]...)...)` (slicex.go:59-63): reads the elements behind `j` into a
temporary array and writes them from `i` on. -/
def cutP (s : Sl) (i j : Int) : Prog T Sl :=
  let p := clamp2 i j s.len
  (loadP s.arr (s.off + p.2.toNat) (s.len - p.2.toNat)).bind fun vs =>
  (saveP s.arr (s.off + p.1.toNat) vs).bind fun _ => .done (.ret { s with len := p.1.toNat + vs.length })

/-- slicex.go:117-119, the loop of `Reverse`; the first argument bounds the rounds. -/
def reverseP (s : Sl) : Nat → Int → Int → Prog T Unit
  | 0, _, _ => .done .hang
  | k + 1, i, j => if i < j then (swapP s i j).bind fun _ => reverseP s k (i + 1) (j - 1) else .done (.ret ())

/-- slicex.go:138-143 `Shuffle` with what the random source returns. -/
def shuffleP (s : Sl) (draw : Nat → Nat) : Nat → Prog T Unit
  | 0 => .done (.ret ())
  | i + 1 => if i = 0 then .done (.ret ()) else (swapP s i ((draw i % (i + 1) : Nat) : Int)).bind fun _ => shuffleP s draw i

/-- slicex.go:147-152, the loop of `Filter` from element `k` on with `n` kept. -/
def filterP (f : T → Bool) (s : Sl) : Nat → Nat → Nat → Prog T Nat
  | 0, _, n => .done (.ret n)
  | r + 1, k, n => .read s.arr (s.off + k) fun v =>
    if f v then (storeP s n v).bind fun _ => filterP f s r (k + 1) (n + 1) else filterP f s r (k + 1) n

/-- slicex.go:207-223, the loop of `IndexOf` and `Contains`: the index of the first element on which `f` says yes. -/
def findP (f : T → Bool) (s : Sl) : Nat → Nat → Prog T (Option Nat)
  | 0, _ => .done (.ret none)
  | r + 1, k => .read s.arr (s.off + k) fun v => if f v then .done (.ret (some k)) else findP f s r (k + 1)

/-- slicex.go:207-214: what `IndexOf` returns. -/
def found : Option Nat → Int
  | some k => k
  | none => -1

/-- All elements: the loops of `Each`, `ForEach` and `Join` (slicex.go:196-205, 225-235) and the copying of `Copy` (slicex.go:21-24). -/
def elemsP (s : Sl) : Prog T (List T) := loadP s.arr s.off s.len

/-- A call: the program, ending with the new header and the result. The last case is for calls that are not in this model. -/
def prog (draw : Nat → Nat) (s : Sl) : Op T → Prog T (Sl × Res T)
  | .set i v => if s.len = 0 then .done (.ret (s, .done)) else (storeP s (clamp i (s.len - 1)) v).bind fun _ => .done (.ret (s, .done))
  | .get i => if s.len = 0 then .done (.ret (s, .val default)) else (indexP s (clamp i (s.len - 1))).bind fun v => .done (.ret (s, .val v))
  | .slice i j => .done ((slice s i j).bind fun s => .ret (s, .done))
  | .cut i j => (cutP s i j).bind fun s => .done (.ret (s, .done))
  | .delete i => (cutP s i (wrap64 (i + 1))).bind fun s => .done (.ret (s, .done))
  | .pop => if s.len = 0 then .done (.ret (s, .val default)) else
      (indexP s (s.len - 1)).bind fun r => (cutP s (s.len - 1) (wrap64 (s.len - 1 + 1))).bind fun s => .done (.ret (s, .val r))
  | .shift => if s.len = 0 then .done (.ret (s, .val default)) else
      (indexP s 0).bind fun r => (cutP s 0 (wrap64 (0 + 1))).bind fun s => .done (.ret (s, .val r))
  | .deleteReplace i => (indexP s (s.len - 1)).bind fun v => (storeP s (clamp i s.len) v).bind fun _ =>
      .done ((reslice s 0 (s.len - 1)).bind fun s => .ret (s, .done))
  | .reverse => (reverseP s (s.len + 1) 0 (s.len - 1)).bind fun _ => .done (.ret (s, .done))
  | .shuffle => (shuffleP s draw s.len).bind fun _ => .done (.ret (s, .done))
  | .filter f => (filterP f s s.len 0 0).bind fun n => .done ((reslice s 0 n).bind fun s => .ret (s, .done))
  | .clear => .done ((clear s).bind fun s => .ret (s, .done))
  | .copy => (elemsP s).bind fun l => .done (.ret (s, .list l))
  | .join fmt sep => (elemsP s).bind fun l => .done (.ret (s, .str (joinLoop fmt sep l 0 "")))
  | .indexOf f => (findP f s s.len 0).bind fun o => .done (.ret (s, .num (found o)))
  | .contains f => (findP f s s.len 0).bind fun o => .done (.ret (s, .yes o.isSome))
  | .each => (elemsP s).bind fun l => .done (.ret (s, .list l))
  | .forEach => (elemsP s).bind fun l => .done (.ret (s, .pairs (l.zipIdx.map Prod.swap)))
  | .len => .done (.ret (s, .num s.len))
  | .push v => .write s.arr (s.off + s.len) v (.done (.ret ({ s with len := s.len + 1 }, .done)))
  | _ => .done .hang

/-- The calls that add nothing. -/
def Tame : Op T → Prop
  | .set _ _ | .get _ | .slice _ _ | .cut _ _ | .delete _ | .pop | .shift | .deleteReplace _ | .reverse | .shuffle | .filter _ | .clear
  | .copy | .join _ _ | .indexOf _ | .contains _ | .each | .forEach | .len => True
  | _ => False

/-- And `Push` where there is room. -/
def TameOrPush (s : Sl) (op : Op T) : Prop := Tame op ∨ (∃ v, op = .push v) ∧ s.len < s.cap

/-! ## Goroutines -/

/-- A goroutine: its slice, the calls it has made with their results, and the rest of the call it is in. -/
structure Loc (T : Type) where
  hdr : Sl
  log : List (Op T × Res T)
  cur : Option (Op T × Prog T (Sl × Res T))

/-- One step of a goroutine. -/
inductive Move (ok : Sl → Op T → Prop) : Cells T × Loc T → Cells T × Loc T → Prop
  | begin {m s log op} (draw : Nat → Nat) : ok s op → Move ok (m, ⟨s, log, none⟩) (m, ⟨s, log, some (op, prog draw s op)⟩)
  | read {m s log op a i k} : Move ok (m, ⟨s, log, some (op, .read a i k)⟩) (m, ⟨s, log, some (op, k (m a i))⟩)
  | write {m s log op a i v k} : Move ok (m, ⟨s, log, some (op, .write a i v k)⟩) (put m a i v, ⟨s, log, some (op, k)⟩)
  | finish {m s log op s' r} : Move ok (m, ⟨s, log, some (op, .done (.ret (s', r)))⟩) (m, ⟨s', log ++ [(op, r)], none⟩)

/-- The array and the goroutines. -/
structure St (T : Type) where
  mem : Cells T
  loc : Nat → Loc T

/-- Any goroutine makes a step. -/
inductive Step (ok : Sl → Op T → Prop) (n : Nat) : St T → St T → Prop
  | mk {x : St T} {t : Nat} {m : Cells T} {l : Loc T} : t < n → Move ok (x.mem, x.loc t) (m, l) →
      Step ok n x ⟨m, fun t' => if t' = t then l else x.loc t'⟩

/-- What goroutines numbered by the pieces `r` can make of the memory `h`. -/
inductive Reach (ok : Sl → Op T → Prop) (h : Hp T) (r : List Sl) : St T → Prop
  | start : Reach ok h r ⟨h.mem, fun t => ⟨r.getD t Sl.nil, [], none⟩⟩
  | step {x y} : Reach ok h r x → Step ok r.length x y → Reach ok h r y

/-- The element a goroutine reads or writes next, and whether it writes. -/
def next (l : Loc T) : Option (Bool × Nat × Nat) :=
  match l.cur with
  | some (_, .read a i _) => some (false, a, i)
  | some (_, .write a i _ _) => some (true, a, i)
  | _ => none

end Verif.SlicePar
