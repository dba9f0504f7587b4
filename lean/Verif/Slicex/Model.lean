import Verif.Go.Slice
/-!
# Model of `dsx/slicex/slicex.go`

A `*Slice[T]` is a slice header in a variable; the methods with pointer receiver return the new
memory and the new header. `lim` is the largest element count `make` accepts for the element type
(beyond it `make` panics). Out-of-memory in `append` is not modelled. Callbacks do not touch the
slice itself.
-/
namespace Verif.Slicex
open Verif.Go

variable {T : Type} [Inhabited T]

/-- slicex.go:247-251, the first half of `preprocIndexException`. -/
def clamp (i len : Int) : Int := if i < 0 then 0 else if i > len then len else i

/-- slicex.go:246-264 `preprocIndexException` with both pointers. -/
def clamp2 (i j len : Int) : Int × Int :=
  let i := clamp i len
  let j := if j > len then len else j
  let j := if j < 0 then 0 else j
  if i > j then (j, i) else (i, j)

/-- `make([]T, n)` or, with `cap`, `make([]T, n, cap)`; zero-filled. -/
def makeSl (lim : Nat) (h : Hp T) (n cap : Int) : Outcome (Hp T × Sl) :=
  if 0 ≤ n ∧ n ≤ cap ∧ cap ≤ lim then .ret (h.alloc (List.replicate n.toNat default) (cap - n).toNat)
  else .panic

/-- slicex.go:15-19 `Extend`. -/
def extend (lim : Nat) (h : Hp T) (g : Nat) (s : Sl) (size : Int) : Outcome (Hp T × Sl) :=
  let size := clamp size size
  (makeSl lim h size size).bind fun (h, z) => .ret (append h g s (elems h z))

/-- slicex.go:21-24 `Copy`: `append((*s)[:0:0], *s...)`. -/
def copy (h : Hp T) (g : Nat) (s : Sl) : Hp T × Sl := append h g ⟨s.arr, s.off, 0, 0⟩ (elems h s)

/-- slicex.go:26-29 `Clear`. -/
def clear (s : Sl) : Outcome Sl := reslice s 0 0

/-- slicex.go:32-38 `Set`. -/
def set (h : Hp T) (s : Sl) (i : Int) (v : T) : Outcome (Hp T) :=
  if s.len = 0 then .ret h else store h s (clamp i (s.len - 1)) v

/-- slicex.go:40-48 `Get`. -/
def get (h : Hp T) (s : Sl) (i : Int) : Outcome T :=
  if s.len = 0 then .ret default else index h s (clamp i (s.len - 1))

/-- slicex.go:50-57 `Slice`. -/
def slice (s : Sl) (i j : Int) : Outcome Sl :=
  let j := if j < 0 then wrap64 (s.len + j) else j
  let (i, j) := clamp2 i j s.len
  reslice s i j

/-- slicex.go:59-63 `Splice`; `v` is the slice of variadic arguments, `g1` and `g2` the growths of
the inner and the outer `append`. -/
def splice (h : Hp T) (g1 g2 : Nat) (s : Sl) (i j : Int) (v : Sl) : Outcome (Hp T × Sl) :=
  let (i, j) := clamp2 i j s.len
  (reslice s 0 i).bind fun a =>
  (reslice s j s.len).bind fun b =>
    let (h, x) := append h g1 v (elems h b)
    .ret (append h g2 a (elems h x))

/-- slicex.go:65-67 `Expand`. -/
def expand (h : Hp T) (g1 g2 : Nat) (s : Sl) (i : Int) (v : Sl) : Outcome (Hp T × Sl) := splice h g1 g2 s i i v

/-- slicex.go:69-71 `Insert`: the variadic slice is a new one-element array. -/
def insert (h : Hp T) (g1 g2 : Nat) (s : Sl) (i : Int) (v : T) : Outcome (Hp T × Sl) :=
  let (h, vs) := h.alloc [v] 0
  expand h g1 g2 s i vs

/-- slicex.go:73-75 `Cut`: no variadic arguments, a nil slice. -/
def cut (h : Hp T) (g1 g2 : Nat) (s : Sl) (i j : Int) : Outcome (Hp T × Sl) := splice h g1 g2 s i j Sl.nil

/-- slicex.go:77-79 `Delete`. -/
def delete (h : Hp T) (g1 g2 : Nat) (s : Sl) (i : Int) : Outcome (Hp T × Sl) := cut h g1 g2 s i (wrap64 (i + 1))

/-- slicex.go:81-83 `Push`. -/
def push (h : Hp T) (g1 g2 : Nat) (s : Sl) (v : T) : Outcome (Hp T × Sl) := insert h g1 g2 s s.len v

/-- slicex.go:85-93 `Pop`. -/
def pop (h : Hp T) (g1 g2 : Nat) (s : Sl) : Outcome ((Hp T × Sl) × T) :=
  if s.len = 0 then .ret ((h, s), default)
  else (index h s (s.len - 1)).bind fun r => (delete h g1 g2 s (s.len - 1)).bind fun p => .ret (p, r)

/-- slicex.go:95-97 `UnShift`. -/
def unShift (h : Hp T) (g1 g2 : Nat) (s : Sl) (v : T) : Outcome (Hp T × Sl) := insert h g1 g2 s 0 v

/-- slicex.go:99-107 `Shift`. -/
def shift (h : Hp T) (g1 g2 : Nat) (s : Sl) : Outcome ((Hp T × Sl) × T) :=
  if s.len = 0 then .ret ((h, s), default)
  else (index h s 0).bind fun r => (delete h g1 g2 s 0).bind fun p => .ret (p, r)

/-- slicex.go:109-114 `DeleteReplace`. -/
def deleteReplace (h : Hp T) (s : Sl) (i : Int) : Outcome (Hp T × Sl) :=
  let i := clamp i s.len
  (index h s (s.len - 1)).bind fun v =>
  (store h s i v).bind fun h =>
  (reslice s 0 (s.len - 1)).bind fun s => .ret (h, s)

/-- `(*s)[i], (*s)[j] = (*s)[j], (*s)[i]`. -/
def swap (h : Hp T) (s : Sl) (i j : Int) : Outcome (Hp T) :=
  (index h s j).bind fun vj =>
  (index h s i).bind fun vi =>
  (store h s i vj).bind fun h => store h s j vi

/-- slicex.go:117-119, the loop of `Reverse`; the first argument bounds the rounds. -/
def reverseLoop (s : Sl) : Nat → Hp T → Int → Int → Outcome (Hp T)
  | 0, _, _, _ => .hang
  | k + 1, h, i, j => if i < j then (swap h s i j).bind fun h => reverseLoop s k h (i + 1) (j - 1) else .ret h

/-- slicex.go:116-121 `Reverse`. -/
def reverse (h : Hp T) (s : Sl) : Outcome (Hp T) := reverseLoop s (s.len + 1) h 0 (s.len - 1)

/-- slicex.go:123-136 `Rotate`. Go's `%` truncates, unary minus wraps. -/
def rotate (h : Hp T) (g : Nat) (s : Sl) (n : Int) : Outcome (Hp T × Sl) :=
  if s.len = 0 then .ret (h, s)
  else if n > 0 then
    let index := n.tmod s.len
    (reslice s index s.len).bind fun a => (reslice s 0 index).bind fun b => .ret (append h g a (elems h b))
  else if n < 0 then
    let index := (wrap64 (-n)).tmod s.len
    (reslice s (s.len - index) s.len).bind fun a =>
    (reslice s 0 (s.len - index)).bind fun b => .ret (append h g a (elems h b))
  else .ret (h, s)

/-- `rand.Shuffle`: swaps element `i` with a random one of `0..i`, for `i` from `n-1` down to 1
(`draw i` is what the source returns). -/
def shuffleLoop (s : Sl) (draw : Nat → Nat) : Nat → Hp T → Outcome (Hp T)
  | 0, h => .ret h
  | i + 1, h =>
    if i = 0 then .ret h else (swap h s i ((draw i % (i + 1) : Nat) : Int)).bind (shuffleLoop s draw i)

/-- slicex.go:138-143 `Shuffle`. -/
def shuffle (h : Hp T) (s : Sl) (draw : Nat → Nat) : Outcome (Hp T) := shuffleLoop s draw s.len h

/-- slicex.go:147-152, the loop of `Filter` from element `k` on with `n` kept. Elements are read as
the loop reaches them. -/
def filterLoop (f : T → Bool) (s : Sl) : Nat → Nat → Nat → Hp T → Outcome (Hp T × Nat)
  | 0, _, n, h => .ret (h, n)
  | r + 1, k, n, h =>
    let v := h.mem s.arr (s.off + k)
    if f v then (store h s n v).bind fun h => filterLoop f s r (k + 1) (n + 1) h
    else filterLoop f s r (k + 1) n h

/-- slicex.go:145-155 `Filter`. -/
def filter (f : T → Bool) (h : Hp T) (s : Sl) : Outcome (Hp T × Sl) :=
  (filterLoop f s s.len 0 0 h).bind fun (h, n) => (reslice s 0 n).bind fun s => .ret (h, s)

/-- slicex.go:159-161, the loop of `Repeat` for `k` more rounds; `gs` gives the growths. -/
def repeatLoop (vs : List T) (gs : Nat → Nat) : Nat → Hp T → Sl → Hp T × Sl
  | 0, h, r => (h, r)
  | k + 1, h, r => let (h, r) := append h (gs k) r vs; repeatLoop vs gs k h r

/-- slicex.go:157-164 `Repeat`. The original's memory is not written by the loop, so its elements
are read once. -/
def rep (lim : Nat) (h : Hp T) (gs : Nat → Nat) (s : Sl) (cnt : Int) : Outcome (Hp T × Sl) :=
  (makeSl lim h 0 (wrap64 (s.len * cnt))).bind fun (h, r) => .ret (repeatLoop (elems h s) gs cnt.toNat h r)

/-- slicex.go:169-178, the loop of `Split`: pieces and final `end`. -/
def splitLoop (s : Sl) : List Int → Int → List Sl → Outcome (List Sl × Int)
  | [], e, r => .ret (r, e)
  | n :: ns, e, r =>
    let e' := clamp (wrap64 (e + n)) s.len
    (if e' < e then reslice s e' e else reslice s e e').bind fun p => splitLoop s ns e' (r ++ [p])

/-- slicex.go:166-183 `Split`. -/
def split (s : Sl) (splits : List Int) : Outcome (List Sl) :=
  (splitLoop s splits 0 []).bind fun (r, e) =>
    if e < s.len then (reslice s e s.len).bind fun p => .ret (r ++ [p]) else .ret r

/-- slicex.go:185-194 `Batch`. -/
def batch (s : Sl) (size : Int) : Outcome (List Sl) :=
  let size := if size ≤ 0 then 1 else size
  split s (List.replicate ((s.len : Int).tdiv size).toNat size)

/-- slicex.go:196-205, the loop of `Join` from index `i` on; `fmt` is `fmt.Sprintf("%v", ·)`. -/
def joinLoop (fmt : T → String) (sep : String) : List T → Nat → String → String
  | [], _, r => r
  | v :: vs, i, r => joinLoop fmt sep vs (i + 1) ((if i ≠ 0 then r ++ sep else r) ++ fmt v)

/-- slicex.go:196-205 `Join`. -/
def join (fmt : T → String) (h : Hp T) (s : Sl) (sep : String) : String := joinLoop fmt sep (elems h s) 0 ""

/-- slicex.go:207-214, the loop of `IndexOf`: result and the values given to `f`. -/
def indexLoop (f : T → Bool) : List T → Int → Int × List T
  | [], _ => (-1, [])
  | v :: vs, i => if f v then (i, [v]) else let (r, c) := indexLoop f vs (i + 1); (r, v :: c)

/-- slicex.go:207-214 `IndexOf`. -/
def indexOf (f : T → Bool) (h : Hp T) (s : Sl) : Int × List T := indexLoop f (elems h s) 0

/-- slicex.go:216-223, the loop of `Contains`: result and the values given to `f`. -/
def containsLoop (f : T → Bool) : List T → Bool × List T
  | [] => (false, [])
  | v :: vs => if f v then (true, [v]) else let (r, c) := containsLoop f vs; (r, v :: c)

/-- slicex.go:216-223 `Contains`. -/
def contains (f : T → Bool) (h : Hp T) (s : Sl) : Bool × List T := containsLoop f (elems h s)

/-- slicex.go:225-229 `Each`: the callback changes a state `σ`. -/
def each {σ : Type} (f : σ → T → σ) (h : Hp T) (s : Sl) (x : σ) : σ := (elems h s).foldl f x

/-- slicex.go:231-235 `ForEach`, the loop from index `i` on. -/
def forEachLoop {σ : Type} (f : σ → Nat → T → σ) : List T → Nat → σ → σ
  | [], _, x => x
  | v :: vs, i, x => forEachLoop f vs (i + 1) (f x i v)

/-- slicex.go:231-235 `ForEach`. -/
def forEach {σ : Type} (f : σ → Nat → T → σ) (h : Hp T) (s : Sl) (x : σ) : σ := forEachLoop f (elems h s) 0 x

/-- slicex.go:237-239 `Len`. -/
def len (s : Sl) : Int := s.len

end Verif.Slicex
