import Verif.Go.Basic

/-!
# Model of `dsx/mapx/sklmapx`

Pointer-level model: nodes live in a heap indexed by addresses, each with 16 next pointers.

Trusted reading: a pointer is an address or nil (`none`); dereferencing nil panics; a removed node
stays in memory as long as something points to it (garbage collection never reuses it here);
`len` (a `uint`) does not overflow. A search that does not terminate is `Outcome.hang`.
-/
namespace Verif.Skl
open Verif.Go

scoped notation "Addr" => Nat

/-- sklmapx.go:9 `MAX_HEIGHT`. -/
def maxHeight : Nat := 16

/-- sklmapx.go:28-33 `sknode`. `next i` is `next[i]`; only indices below 16 are ever used. -/
structure Node (K V : Type) where
  key : K
  value : V
  next : Nat → Option Addr
  height : Nat

/-- The nodes that exist: address -> content. `brk` is the next unused address. -/
structure Heap (K V : Type) where
  mem : Addr → Node K V
  brk : Addr

/-- sklmapx.go:21-26 `skl`, and sklmapx.go:87-89 `SkipListMap`, which only wraps it. -/
structure Skl where
  head : Addr
  tail : Addr
  seed : BitVec 64
  len : Nat

/-- One map together with the memory it lives in. -/
structure World (K V : Type) where
  heap : Heap K V
  skl : Skl

/-- splitmix64.go:22 -/
def incrementConstant : BitVec 64 := 0x9e3779b97f4a7c15#64

/-- splitmix64.go:24-28 `next`. -/
def mix (x0 : BitVec 64) : BitVec 64 :=
  let x0 := (x0 ^^^ (x0 >>> 30)) * 0xbf58476d1ce4e5b9#64
  let x0 := (x0 ^^^ (x0 >>> 27)) * 0x94d049bb133111eb#64
  x0 ^^^ (x0 >>> 31)

/-- splitmix64.go:30-34 `splitmix64`: new state and the drawn value. -/
def splitmix64 (state : BitVec 64) : BitVec 64 × BitVec 64 :=
  let state := state + incrementConstant
  (state, mix state)

/-- splitmix64.go:46-49 `root_next` (the atomic add is one step): new root seed, seed handed out. -/
def rootNext (root : BitVec 64) : BitVec 64 × BitVec 64 :=
  let s := root + incrementConstant
  (s, mix s)

/-- sklmapx.go:13-18, the loop of `rand_height` entered with `h = maxHeight - n`. -/
def randHeightLoop : Nat → BitVec 64 → Nat × BitVec 64
  | 0, seed => (maxHeight, seed)
  | n + 1, seed =>
    let (seed', v) := splitmix64 seed
    if v &&& 1#64 = 1#64 then (maxHeight - (n + 1), seed') else randHeightLoop n seed'

/-- sklmapx.go:11-19 `rand_height`: the height drawn and the new seed. -/
def randHeight (seed : BitVec 64) : Nat × BitVec 64 := randHeightLoop (maxHeight - 1) seed

section
variable {K V : Type} [GoOrdered K]

/-- `m[a].next[i] = p` -/
def setNext (m : Addr → Node K V) (a : Addr) (i : Nat) (p : Option Addr) : Addr → Node K V :=
  fun b => if b = a then { m a with next := fun j => if j = i then p else (m a).next j } else m b

/-- `m[a].value = v` -/
def setValue (m : Addr → Node K V) (a : Addr) (v : V) : Addr → Node K V :=
  fun b => if b = a then { m a with value := v } else m b

/-- sklmapx.go:42-44, the inner loop of `search` on level `i` (the first argument is fuel). -/
def walk (m : Addr → Node K V) (tail : Addr) (i : Nat) (key : K) : Nat → Addr → Outcome Addr
  | 0, _ => .hang
  | fuel + 1, x =>
    match (m x).next i with
    | none => .panic
    | some y =>
      if y = tail then .ret x
      else if GoOrdered.lt (m y).key key then walk m tail i key fuel y
      else .ret x

/-- sklmapx.go:41-46, the outer loop of `search` for levels below the first argument, downwards. -/
def searchLoop (m : Addr → Node K V) (tail : Addr) (key : K) (fuel : Nat) :
    Nat → Addr → (Nat → Option Addr) → Outcome (Addr × (Nat → Option Addr))
  | 0, x, ctx => .ret (x, ctx)
  | i + 1, x, ctx =>
    (walk m tail i key fuel x).bind fun y =>
      searchLoop m tail key fuel i y (fun j => if j = i then some y else ctx j)

/-- sklmapx.go:39-52 `search`: the node found (or nil) and the filled `ctx`. The fuel for one level
is the number of nodes ever allocated, so running out of it means the real loop does not end. -/
def search (w : World K V) (key : K) : Outcome (Option Addr × (Nat → Option Addr)) :=
  (searchLoop w.heap.mem w.skl.tail key (w.heap.brk + 1) maxHeight w.skl.head (fun _ => none)).bind
    fun (x, ctx) =>
      match (w.heap.mem x).next 0 with
      | none => .panic
      | some y =>
        if y = w.skl.tail ∨ GoOrdered.eq (w.heap.mem y).key key = false then .ret (none, ctx)
        else .ret (some y, ctx)

/-- sklmapx.go:64-67, the linking loop of `insert` for levels `0 .. n-1`. -/
def linkLoop (node : Addr) (ctx : Nat → Option Addr) (m : Addr → Node K V) :
    Nat → Outcome (Addr → Node K V)
  | 0 => .ret m
  | i + 1 =>
    (linkLoop node ctx m i).bind fun m =>
      match ctx i with
      | none => .panic
      | some c =>
        let m := setNext m node i ((m c).next i)
        .ret (setNext m c i (some node))

/-- sklmapx.go:54-71 `insert`. The drawn level and the
generator state after the draw are arguments here. -/
def insertWith (rh : Nat × BitVec 64) (w : World K V) (key : K) (value : V) : Outcome (World K V) :=
  (search w key).bind fun
    | (some x, _) => .ret { w with heap := { w.heap with mem := setValue w.heap.mem x value } }
    | (none, ctx) =>
      let node := w.heap.brk
      let m : Addr → Node K V := fun b =>
        if b = node then { key := key, value := value, next := fun _ => none, height := rh.1 }
        else w.heap.mem b
      (linkLoop node ctx m rh.1).bind fun m =>
        .ret { heap := { mem := m, brk := node + 1 },
               skl := { w.skl with seed := rh.2, len := w.skl.len + 1 } }

/-- Lines as for `insertWith`: the level comes from `rand_height(&s.seed)`. -/
def insert (w : World K V) (key : K) (value : V) : Outcome (World K V) :=
  insertWith (randHeight w.skl.seed) w key value

/-- sklmapx.go:79-81, the unlinking loop of `delete` for levels `0 .. n-1`. -/
def unlinkLoop (x : Addr) (ctx : Nat → Option Addr) (m : Addr → Node K V) :
    Nat → Outcome (Addr → Node K V)
  | 0 => .ret m
  | i + 1 =>
    (unlinkLoop x ctx m i).bind fun m =>
      match ctx i with
      | none => .panic
      | some c => .ret (setNext m c i ((m x).next i))

/-- sklmapx.go:73-85 `delete`. -/
def delete (w : World K V) (key : K) : Outcome (World K V × Bool) :=
  (search w key).bind fun
    | (none, _) => .ret (w, false)
    | (some x, ctx) =>
      (unlinkLoop x ctx w.heap.mem (w.heap.mem x).height).bind fun m =>
        .ret ({ heap := { w.heap with mem := m }, skl := { w.skl with len := w.skl.len - 1 } }, true)

/-- sklmapx.go:91-94 `Set`. -/
def set (w : World K V) (key : K) (value : V) : Outcome (World K V) := insert w key value

/-- sklmapx.go:96-99 `Del`. -/
def del (w : World K V) (key : K) : Outcome (World K V × Bool) := delete w key

/-- sklmapx.go:101-109 `Get`; `(zero, false)` is `none`. -/
def get (w : World K V) (key : K) : Outcome (Option V) :=
  (search w key).bind fun
    | (none, _) => .ret none
    | (some x, _) => .ret (some (w.heap.mem x).value)

/-- sklmapx.go:171-173 `Len`. -/
def len (w : World K V) : Nat := w.skl.len

variable [Inhabited K] [Inhabited V]

/-- sklmapx.go:111-119 `New` in a heap that may already hold other nodes; `seed` is what
`root_next` returned. -/
def newIn (h : Heap K V) (seed : BitVec 64) : World K V :=
  let head := h.brk
  let tail := h.brk + 1
  let m : Addr → Node K V := fun b =>
    if b = head then
      { key := default, value := default,
        next := fun i => if i < maxHeight then some tail else none, height := 0 }
    else if b = tail then
      { key := default, value := default, next := fun _ => none, height := 0 }
    else h.mem b
  { heap := { mem := m, brk := h.brk + 2 },
    skl := { head := head, tail := tail, seed := seed, len := 0 } }

/-- A heap in which nothing is allocated. -/
def emptyHeap : Heap K V :=
  { mem := fun _ => { key := default, value := default, next := fun _ => none, height := 0 }, brk := 0 }

/-- sklmapx.go:111-119 `New` in a fresh program. -/
def new (seed : BitVec 64) : World K V := newIn emptyHeap seed

/-- sklmapx.go:188-191 `Clear`: the map header is overwritten by that of a new map. The seed comes
from `root_next`, which other maps advance too, so it is a parameter. -/
def clear (w : World K V) (seed : BitVec 64) : World K V := newIn w.heap seed

/-- sklmapx.go:193-197 `Iterator`: only `node` matters (`ctx` is written by `Seek`, never read). -/
structure Iter where
  node : Option Addr

/-- sklmapx.go:121-123 `Iterator()`. -/
def iterator : Iter := ⟨none⟩

/-- sklmapx.go:209-211 `Rewind`. -/
def rewind (_ : Iter) : Iter := ⟨none⟩

/-- sklmapx.go:199-207 `Seek`: new iterator and the entry, `none` standing for `ok = false`. -/
def seek (w : World K V) (_ : Iter) (key : K) : Outcome (Iter × Option (K × V)) :=
  (search w key).bind fun
    | (none, _) => .ret (⟨none⟩, none)
    | (some x, _) => .ret (⟨some x⟩, some ((w.heap.mem x).key, (w.heap.mem x).value))

/-- sklmapx.go:213-225 `Next`. -/
def next (w : World K V) (it : Iter) : Outcome (Iter × Option (K × V)) :=
  let p := match it.node with
    | none => (w.heap.mem w.skl.head).next 0
    | some x => (w.heap.mem x).next 0
  match p with
  | none => .panic
  | some x =>
    if x = w.skl.tail then .ret (⟨some x⟩, none)
    else .ret (⟨some x⟩, some ((w.heap.mem x).key, (w.heap.mem x).value))

/-- The `for { k, v, ok := i.Next(); if !ok { break }; ... }` loop of sklmapx.go:130-140, 148-154,
161-167, 178-184: all entries from the iterator's position on. The first argument is fuel. -/
def drain (w : World K V) : Nat → Iter → Outcome (List (K × V))
  | 0, _ => .hang
  | fuel + 1, it =>
    (next w it).bind fun
      | (_, none) => .ret []
      | (it', some kv) => (drain w fuel it').map (kv :: ·)

/-- All entries in iteration order. -/
def entries (w : World K V) : Outcome (List (K × V)) := drain w (w.heap.brk + 1) iterator

/-- sklmapx.go:145-156 `Keys`. -/
def keys (w : World K V) : Outcome (List K) := (entries w).map (·.map Prod.fst)

/-- sklmapx.go:158-169 `Values`. -/
def values (w : World K V) : Outcome (List V) := (entries w).map (·.map Prod.snd)

/-- sklmapx.go:175-186 `ToMap`: a Go map as a function, filled by assignments in iteration order. -/
def toMap (w : World K V) : Outcome (K → Option V) :=
  (entries w).map fun l =>
    l.foldl (fun (m : K → Option V) (kv : K × V) k => if GoOrdered.eq k kv.1 then some kv.2 else m k)
      (fun _ => none)

/-- sklmapx.go:125-143 `String`; `fmtKV` is `fmt.Appendf("%v:%v")` of one entry. The loop state is
the buffer and `idx`. -/
def toStr (fmtKV : K → V → String) (w : World K V) : Outcome String :=
  (entries w).map fun l =>
    (l.foldl (fun (buf, idx) (kv : K × V) =>
        ((if idx > 0 then buf ++ " " else buf) ++ fmtKV kv.1 kv.2, idx + 1))
      ("sklmapx[", 0)).1 ++ "]"

end

end Verif.Skl
