import Verif.HandOut.Model
import Verif.SklShare.Model
/-!
# Model of a `dsx/mapx/sklmapx` map used as a priority queue that goroutines share

The program keeps what is to be done in a skip-list map, under its priority, and guards the map with a `sync.Mutex`, unlocked with
`defer`. Each call below is made with the mutex held; it is one step. The memory is that of `Verif.Skl`.
-/
namespace Verif.SklPrio
open Verif.Go Verif.Conc Verif.Skl
open Verif.Linked (Res)
open Verif.SklShare (Mem)

variable {K V : Type} [GoOrdered K] [LawfulOrdered K] [DecidableEq K] [Inhabited K] [Inhabited V]

/-- `if _, ok := m.Get(k); ok { return false }; m.Set(k, v); return true`. sklmapx.go:101-109 (`Get`), 91-94 (`Set`). -/
def push (w : World K V) (k : K) (v : V) : Outcome (World K V × Bool) :=
  (Skl.get w k).bind fun
    | some _ => .ret (w, false)
    | none => (Skl.set w k v).map fun w' => (w', true)

/-- `it := m.Iterator(); k, v, ok := it.Next(); if ok { m.Del(k) }; return k, v, ok`. sklmapx.go:121-123 (`Iterator`), 213-228 (`Next`), 96-99 (`Del`). -/
def pop (w : World K V) : Outcome (World K V × Option (K × V)) :=
  (Skl.next w Skl.iterator).bind fun
    | (_, none) => .ret (w, none)
    | (_, some e) => (Skl.del w e.1).map fun x => (x.1, some e)

/-- `it := m.Iterator(); return it.Next()`. sklmapx.go:121-123, 213-228. -/
def peek (w : World K V) : Outcome (Option (K × V)) := (Skl.next w Skl.iterator).map fun x => x.2

/-- The calls. -/
inductive Call (K V : Type) where
  | push (k : K) (v : V)
  | pop
  | peek
  | len

/-- An entry, or that there is none, as a result. -/
def entry : Option (K × V) → Res (K × V)
  | some e => .val e
  | none => .none

/-- A call on the memory `m`. `len` is `m.Len()`, sklmapx.go:171-173. -/
def call {seed : BitVec 64} (m : Mem K V seed) (c : Call K V) (r : Res (K × V)) (m' : Mem K V seed) : Prop :=
  match c with
  | .push k v => ∃ b, push m.1 k v = .ret (m'.1, b) ∧ r = .bool b
  | .pop => ∃ e, pop m.1 = .ret (m'.1, e) ∧ r = entry e
  | .peek => ∃ e, peek m.1 = .ret e ∧ r = entry e ∧ m' = m
  | .len => r = .num (Skl.len m.1) ∧ m' = m

/-- The queue behind the mutex, new. sklmapx.go:111-119 (`New`). -/
def queue (K V : Type) [GoOrdered K] [LawfulOrdered K] [DecidableEq K] [Inhabited K] [Inhabited V] (seed : BitVec 64) :
    RW.Guarded (Mem K V seed) Unit (Call K V) (Res (K × V)) :=
  HandOut.behind ⟨Skl.new seed, [], rfl⟩ call

end Verif.SklPrio
