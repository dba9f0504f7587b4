import Verif.Prelude
/-!
# Goroutines that update the entries of one concurrent map (`dsx/mapx/syncmapx`)

A goroutine has a list of updates; for each it calls `m.Set(k, f(m.Get(k)))`. With `locked` it holds a mutex of the program's own
meanwhile. Every lock operation and every access to the Go map is a step. `sync.RWMutex` is the set of goroutines that hold it for reading
and the one that holds it for writing; its writer preference only removes schedules and is not modelled.
-/
namespace Verif.MapUpd

/-- An update of the program: the key and what is done to the value. -/
structure Job (K V : Type) where
  key : K
  f : V → V

/-- Where a goroutine is: between updates; before `RLock` of `Get`; before the access; before `RUnlock`, with the value; after `Get`; before the
access of `Set`; before its `Unlock`; after `Set`. -/
inductive Pc (V : Type) where
  | idle
  | want
  | get
  | read (v : V)
  | got (v : V)
  | set (v : V)
  | wrote
  | fin

/-- A goroutine: its updates that are not done, the first being the current one, and where it is. -/
structure Th (K V : Type) where
  jobs : List (Job K V)
  pc : Pc V

/-- The Go map and the lock of the `Map` (syncmapx.go:6-9), the mutex of the program, the goroutines. -/
structure St (K V : Type) where
  m : K → Option V
  rd : Nat → Bool
  wr : Option Nat
  mu : Option Nat
  thr : Nat → Th K V

/-- A function changed at one place. -/
def upd {α β : Type} [DecidableEq α] (f : α → β) (i : α) (b : β) : α → β := fun k => if k = i then b else f k

section
variable {K V : Type} [DecidableEq K] [Inhabited V]

/-- A step of goroutine `t`: `Get` (syncmapx.go:17-22) and `Set` (syncmapx.go:58-62) with what the program does in between. -/
inductive Step (locked : Bool) (t : Nat) : St K V → St K V → Prop where
  | begin {s j js} : s.thr t = ⟨j :: js, .idle⟩ → (locked = true → s.mu = none) →
      Step locked t s { s with mu := if locked then some t else s.mu, thr := upd s.thr t ⟨j :: js, .want⟩ }
  | rlock {s js} : s.thr t = ⟨js, .want⟩ → s.wr = none →
      Step locked t s { s with rd := upd s.rd t true, thr := upd s.thr t ⟨js, .get⟩ }
  | read {s j js} : s.thr t = ⟨j :: js, .get⟩ →
      Step locked t s { s with thr := upd s.thr t ⟨j :: js, .read ((s.m j.key).getD default)⟩ }
  | runlock {s js v} : s.thr t = ⟨js, .read v⟩ →
      Step locked t s { s with rd := upd s.rd t false, thr := upd s.thr t ⟨js, .got v⟩ }
  | lock {s js v} : s.thr t = ⟨js, .got v⟩ → s.wr = none → (∀ u, s.rd u = false) →
      Step locked t s { s with wr := some t, thr := upd s.thr t ⟨js, .set v⟩ }
  | write {s j js v} : s.thr t = ⟨j :: js, .set v⟩ →
      Step locked t s { s with m := upd s.m j.key (some (j.f v)), thr := upd s.thr t ⟨j :: js, .wrote⟩ }
  | unlock {s js} : s.thr t = ⟨js, .wrote⟩ →
      Step locked t s { s with wr := none, thr := upd s.thr t ⟨js, .fin⟩ }
  | done {s j js} : s.thr t = ⟨j :: js, .fin⟩ →
      Step locked t s { s with mu := if locked then none else s.mu, thr := upd s.thr t ⟨js, .idle⟩ }

/-- The start: the map as it is, every goroutine with its updates. -/
def start (m : K → Option V) (prog : Nat → List (Job K V)) : St K V := ⟨m, fun _ => false, none, none, fun t => ⟨prog t, .idle⟩⟩

inductive Reach (locked : Bool) (m : K → Option V) (prog : Nat → List (Job K V)) : St K V → Prop where
  | start : Reach locked m prog (start m prog)
  | step {s s' t} : Reach locked m prog s → Step locked t s s' → Reach locked m prog s'

end
end Verif.MapUpd
