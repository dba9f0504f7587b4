import Verif.Skl.Model
/-!
# `dsx/mapx/sklmapx/sklmapx.go` with the comparisons of keys

As `Verif.Skl.Model`, but each function also returns the comparisons it makes, in order. The operands are
a key of the map and the key of the call; only the former is recorded.
-/
namespace Verif.SklCost
open Verif.Go Verif.Skl

/-- A comparison of a key of the map with the key of the call. -/
inductive Ask (K : Type) where
  /-- `x.next[i].key < key`, line 42 -/
  | less (k : K)
  /-- `x.key != key`, line 48 -/
  | differ (k : K)
  deriving DecidableEq

variable {K V : Type} [GoOrdered K]

/-- sklmapx.go:42-44, the inner loop of `search` on level `i` (the first argument is fuel). -/
def walk (m : Addr → Node K V) (tail : Addr) (i : Nat) (key : K) : Nat → Addr → Outcome Addr × List (Ask K)
  | 0, _ => (.hang, [])
  | fuel + 1, x =>
    match (m x).next i with
    | none => (.panic, [])
    | some y =>
      if y = tail then (.ret x, [])
      else if GoOrdered.lt (m y).key key then
        ((walk m tail i key fuel y).1, .less (m y).key :: (walk m tail i key fuel y).2)
      else (.ret x, [.less (m y).key])

/-- Whatever follows: its comparisons come after those made. -/
def andThen {α β : Type} (p : Outcome α × List (Ask K)) (f : α → Outcome β × List (Ask K)) :
    Outcome β × List (Ask K) :=
  match p with
  | (.ret a, c) => ((f a).1, c ++ (f a).2)
  | (.panic, c) => (.panic, c)
  | (.hang, c) => (.hang, c)

/-- sklmapx.go:41-46, the outer loop of `search` for levels below the first argument, downwards. -/
def searchLoop (m : Addr → Node K V) (tail : Addr) (key : K) (fuel : Nat) :
    Nat → Addr → (Nat → Option Addr) → Outcome (Addr × (Nat → Option Addr)) × List (Ask K)
  | 0, x, ctx => (.ret (x, ctx), [])
  | i + 1, x, ctx =>
    andThen (walk m tail i key fuel x) fun y =>
      searchLoop m tail key fuel i y (fun j => if j = i then some y else ctx j)

/-- sklmapx.go:39-52 `search`. -/
def search (w : World K V) (key : K) : Outcome (Option Addr × (Nat → Option Addr)) × List (Ask K) :=
  andThen (searchLoop w.heap.mem w.skl.tail key (w.heap.brk + 1) maxHeight w.skl.head (fun _ => none))
    fun (x, ctx) =>
      match (w.heap.mem x).next 0 with
      | none => (.panic, [])
      | some y =>
        if y = w.skl.tail then (.ret (none, ctx), [])
        else if GoOrdered.eq (w.heap.mem y).key key = false then (.ret (none, ctx), [.differ (w.heap.mem y).key])
        else (.ret (some y, ctx), [.differ (w.heap.mem y).key])

/-- sklmapx.go:54-71 `insert`, called by `Set` (lines 91-94): nothing is compared apart from the search. -/
def set (w : World K V) (key : K) (value : V) : Outcome (World K V) × List (Ask K) :=
  andThen (search w key) fun
    | (some x, _) => (.ret { w with heap := { w.heap with mem := setValue w.heap.mem x value } }, [])
    | (none, ctx) =>
      let rh := randHeight w.skl.seed
      let node := w.heap.brk
      let m : Addr → Node K V := fun b =>
        if b = node then { key := key, value := value, next := fun _ => none, height := rh.1 }
        else w.heap.mem b
      ((linkLoop node ctx m rh.1).bind fun m =>
        .ret { heap := { mem := m, brk := w.heap.brk + 1 },
               skl := { w.skl with seed := rh.2, len := w.skl.len + 1 } }, [])

/-- sklmapx.go:73-85 `delete`, called by `Del` (lines 96-99). -/
def del (w : World K V) (key : K) : Outcome (World K V × Bool) × List (Ask K) :=
  andThen (search w key) fun
    | (none, _) => (.ret (w, false), [])
    | (some x, ctx) =>
      ((unlinkLoop x ctx w.heap.mem (w.heap.mem x).height).bind fun m =>
        .ret ({ heap := { w.heap with mem := m }, skl := { w.skl with len := w.skl.len - 1 } }, true), [])

/-- sklmapx.go:101-109 `Get`. -/
def get (w : World K V) (key : K) : Outcome (Option V) × List (Ask K) :=
  andThen (search w key) fun
    | (none, _) => (.ret none, [])
    | (some x, _) => (.ret (some (w.heap.mem x).value), [])

/-- sklmapx.go:199-207 `Seek`. -/
def seek (w : World K V) (_ : Iter) (key : K) : Outcome (Iter × Option (K × V)) × List (Ask K) :=
  andThen (search w key) fun
    | (none, _) => (.ret (⟨none⟩, none), [])
    | (some x, _) => (.ret (⟨some x⟩, some ((w.heap.mem x).key, (w.heap.mem x).value)), [])

end Verif.SklCost
