import Verif.Conc.RW
import Verif.Skl.Refine
/-!
# Model of a `dsx/mapx/sklmapx` map behind a `sync.RWMutex`

Goroutines share one map and hold the mutex for reading around the calls that read and for writing around `Set`, `Del` and `Clear`.
The memory is that of `Verif.Skl`. The calls that read go through it node by node, one step for each round of their loops, and the
steps of different goroutines interleave; the writing calls, which run alone, are one step. What a call reads is what is in memory
at that moment. The iterator of a `Keys`, `Values`, `ToMap` or `Seek` call belongs to the call.
-/
namespace Verif.SklShare
open Verif.Go Verif.Conc Verif.Skl Verif.MapSpec

variable {K V : Type} [GoOrdered K] [LawfulOrdered K] [DecidableEq K] [Inhabited K] [Inhabited V]

/-- The memory some calls on a new map lead to. -/
def Mem (K V : Type) [GoOrdered K] [LawfulOrdered K] [DecidableEq K] [Inhabited K] [Inhabited V] (seed : BitVec 64) : Type :=
  { w : World K V // ∃ hist, run (Skl.new seed) hist = .ret w }

/-- The calls. `all` is `ToMap` and `String`, which read every entry. -/
inductive Call (K V : Type) where
  | set (k : K) (v : V)
  | del (k : K)
  | clear (seed : BitVec 64)
  | get (k : K)
  | seek (k : K)
  | len
  | keys
  | values
  | all

/-- What they return. -/
inductive Res (K V : Type) where
  | unit
  | bool (b : Bool)
  | val (v : Option V)
  | entry (e : Option (K × V))
  | num (n : Nat)
  | keys (ks : List K)
  | vals (vs : List V)
  | all (es : List (K × V))

/-- The local variables of a call: of `search`, the node `x` and the number of levels that are left; of the loops with `Next`, what
was collected and the iterator. -/
inductive Loc (K V : Type) where
  | start
  | at (x : Nat) (levels : Nat)
  | list (acc : List (K × V)) (it : Iter)

/-- One round of a loop. sklmapx.go:40-46 (`search`) and 148-154, 161-167, 130-140, 178-184 (the loops with `Next`). -/
inductive Iterate (w : World K V) : Call K V → Loc K V → Loc K V → Prop where
  | get {k} : Iterate w (.get k) .start (.at w.skl.head maxHeight)
  | seek {k} : Iterate w (.seek k) .start (.at w.skl.head maxHeight)
  | move {c k x i y} : c = .get k ∨ c = .seek k → (w.heap.mem x).next i = some y → y ≠ w.skl.tail →
      GoOrdered.lt (w.heap.mem y).key k = true → Iterate w c (.at x (i + 1)) (.at y (i + 1))
  | down {c k x i y} : c = .get k ∨ c = .seek k → (w.heap.mem x).next i = some y →
      (y = w.skl.tail ∨ GoOrdered.lt (w.heap.mem y).key k = false) → Iterate w c (.at x (i + 1)) (.at x i)
  | list {c} : c = .keys ∨ c = .values ∨ c = .all → Iterate w c .start (.list [] iterator)
  | next {c acc it it' e} : c = .keys ∨ c = .values ∨ c = .all → next w it = .ret (it', some e) →
      Iterate w c (.list acc it) (.list (acc ++ [e]) it')

/-- sklmapx.go:47-51: the node found from the last position. -/
inductive Found (w : World K V) (k : K) (x : Nat) : Option Nat → Prop where
  | yes {y} : (w.heap.mem x).next 0 = some y → y ≠ w.skl.tail → GoOrdered.eq (w.heap.mem y).key k = true → Found w k x (some y)
  | no {y} : (w.heap.mem x).next 0 = some y → (y = w.skl.tail ∨ GoOrdered.eq (w.heap.mem y).key k = false) → Found w k x none

/-- The rest of a call and what it returns. sklmapx.go:91-109, 145-173, 188-191, 199-207. -/
inductive Finish {seed : BitVec 64} (w : Mem K V seed) : Call K V → Loc K V → Res K V → Mem K V seed → Prop where
  | set {k v w'} : Skl.set w.1 k v = .ret w'.1 → Finish w (.set k v) .start .unit w'
  | del {k b w'} : Skl.del w.1 k = .ret (w'.1, b) → Finish w (.del k) .start (.bool b) w'
  | clear {s w'} : w'.1 = Skl.clear w.1 s → Finish w (.clear s) .start .unit w'
  | get {k x o} : Found w.1 k x o → Finish w (.get k) (.at x 0) (.val (o.map fun y => (w.1.heap.mem y).value)) w
  | seek {k x o} : Found w.1 k x o →
      Finish w (.seek k) (.at x 0) (.entry (o.map fun y => ((w.1.heap.mem y).key, (w.1.heap.mem y).value))) w
  | len : Finish w .len .start (.num (Skl.len w.1)) w
  | keys {acc it it'} : next w.1 it = .ret (it', none) → Finish w .keys (.list acc it) (.keys (acc.map Prod.fst)) w
  | values {acc it it'} : next w.1 it = .ret (it', none) → Finish w .values (.list acc it) (.vals (acc.map Prod.snd)) w
  | all {acc it it'} : next w.1 it = .ret (it', none) → Finish w .all (.list acc it) (.all acc) w

/-- Which calls are made under the lock for writing. -/
def writes : Call K V → Bool
  | .set _ _ => true
  | .del _ => true
  | .clear _ => true
  | _ => false

/-- The map behind the mutex. -/
def shared (K V : Type) [GoOrdered K] [LawfulOrdered K] [DecidableEq K] [Inhabited K] [Inhabited V] (seed : BitVec 64) :
    RW.Guarded (Mem K V seed) (Loc K V) (Call K V) (Res K V) where
  init := ⟨Skl.new seed, [], rfl⟩
  writes := writes
  start := .start
  iter := fun w => Iterate w.1
  fin := Finish

/-- sklmapx.go:57-70: what `insert` does after its search. -/
def afterSearch (rh : Nat × BitVec 64) (w : World K V) (key : K) (value : V) :
    Option Nat × (Nat → Option Nat) → Outcome (World K V)
  | (some x, _) => .ret { w with heap := { w.heap with mem := setValue w.heap.mem x value } }
  | (none, ctx) =>
    (linkLoop w.heap.brk ctx (fun b => if b = w.heap.brk then { key := key, value := value, next := fun _ => none, height := rh.1 }
      else w.heap.mem b) rh.1).bind fun m =>
        .ret { heap := { mem := m, brk := w.heap.brk + 1 }, skl := { w.skl with seed := rh.2, len := w.skl.len + 1 } }

abbrev St (K V : Type) [GoOrdered K] [LawfulOrdered K] [DecidableEq K] [Inhabited K] [Inhabited V] (seed : BitVec 64) :=
  RW.St (Mem K V seed) (Loc K V) (Call K V) (Res K V)

end Verif.SklShare
