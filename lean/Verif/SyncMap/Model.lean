import Verif.Conc.Lin
/-!
# Model of `dsx/mapx/syncmapx`

Any number of goroutines (numbered by `Nat`), each making one call at a time. A call is a sequence
of steps: invocation, lock acquisition, the accesses to the Go map, lock release, return. Steps of
different goroutines interleave arbitrarily.

The Go map is a list of entries with distinct keys. `for k := range m` visits the entries one per
step in an arbitrary order. `sync.RWMutex` is the list of goroutines holding it for reading and the
one holding it for writing; its writer preference only removes schedules and is not modelled.
-/
namespace Verif.SyncMap
open Verif.Conc

variable {K V : Type} [DecidableEq K] [DecidableEq V]

/-- The exported methods, syncmapx.go:17-74. -/
inductive Call (K V : Type) where
  | get (k : K)
  | has (k : K)
  | size
  | keys
  | values
  | set (k : K) (v : V)
  | delete (k : K)
  | clear
  deriving DecidableEq

/-- Results of the methods. -/
inductive Res (K V : Type) where
  | val (v : V)
  | bool (b : Bool)
  | num (n : Nat)
  | keys (ks : List K)
  | vals (vs : List V)
  | unit

inductive Mode where
  | read
  | write
  deriving DecidableEq

/-- Which lock method each call takes: syncmapx.go:18, 25, 32, 39, 49 (`RLock`) and 59, 65, 71
(`Lock`). -/
def mode : Call K V → Mode
  | .get _ => .read
  | .has _ => .read
  | .size => .read
  | .keys => .read
  | .values => .read
  | .set _ _ => .write
  | .delete _ => .write
  | .clear => .write

/-- `m[k]` on a Go map. -/
def find (m : List (K × V)) (k : K) : Option V := (m.find? (fun e => decide (e.1 = k))).map (·.2)

/-- `m[k] = v` on a Go map. -/
def assign (m : List (K × V)) (k : K) (v : V) : List (K × V) := (k, v) :: m.filter (fun e => decide (e.1 ≠ k))

/-- `delete(m, k)` on a Go map. -/
def erase (m : List (K × V)) (k : K) : List (K × V) := m.filter (fun e => decide (e.1 ≠ k))

/-- Where a goroutine is: `want` before the lock, `body` in the map accesses (with the entries the
`range` loop has visited), `held` after them with the lock still held, `out` after the unlock. -/
inductive Pc (K V : Type) where
  | idle
  | want (id : Nat) (c : Call K V)
  | body (id : Nat) (c : Call K V) (acc : List (K × V))
  | held (id : Nat) (c : Call K V) (r : Res K V)
  | out (id : Nat) (c : Call K V) (r : Res K V)

/-- syncmapx.go:6-9 `Map`, the goroutines, and the history seen so far. `next` numbers the calls. -/
structure St (K V : Type) where
  m : List (K × V)
  writer : Option Nat
  readers : List Nat
  pc : Nat → Pc K V
  next : Nat
  hist : List (Event (Call K V) (Res K V))

def setPc (f : Nat → Pc K V) (t : Nat) (p : Pc K V) : Nat → Pc K V := fun t' => if t' = t then p else f t'

/-- syncmapx.go:11-15 `New`. -/
def init : St K V :=
  { m := [], writer := none, readers := [], pc := fun _ => .idle, next := 0, hist := [] }

/-- The last access of a call's body: its result and the map after it. `none` while a `range` loop
has entries left. -/
def finish [Inhabited V] (m : List (K × V)) (c : Call K V) (acc : List (K × V)) :
    Option (Res K V × List (K × V)) :=
  match c with
  | .get k => some (.val ((find m k).getD default), m)        -- syncmapx.go:19
  | .has k => some (.bool (find m k).isSome, m)               -- syncmapx.go:26
  | .size => some (.num m.length, m)                          -- syncmapx.go:33
  | .keys => if ∀ e ∈ m, e ∈ acc then some (.keys (acc.map (·.1)), m) else none    -- :40-43
  | .values => if ∀ e ∈ m, e ∈ acc then some (.vals (acc.map (·.2)), m) else none  -- :50-53
  | .set k v => some (.unit, assign m k v)                    -- syncmapx.go:60
  | .delete k => some (.unit, erase m k)                      -- syncmapx.go:66
  | .clear => some (.unit, [])                                -- syncmapx.go:72

/-- One step of one goroutine. -/
inductive Step [Inhabited V] : St K V → St K V → Prop
  /-- some goroutine invokes a method -/
  | invoke {s t c} : s.pc t = .idle →
      Step s { s with pc := setPc s.pc t (.want s.next c), next := s.next + 1,
                      hist := s.hist ++ [.inv s.next c] }
  /-- `RLock` -/
  | rlock {s t id c} : s.pc t = .want id c → mode c = .read → s.writer = none →
      Step s { s with pc := setPc s.pc t (.body id c []), readers := t :: s.readers }
  /-- `Lock` -/
  | lock {s t id c} : s.pc t = .want id c → mode c = .write → s.writer = none → s.readers = [] →
      Step s { s with pc := setPc s.pc t (.body id c []), writer := some t }
  /-- one round of a `range` loop over the map (syncmapx.go:41-43, 51-53) -/
  | iter {s t id c acc e} : s.pc t = .body id c acc → (c = .keys ∨ c = .values) → e ∈ s.m → e ∉ acc →
      Step s { s with pc := setPc s.pc t (.body id c (acc ++ [e])) }
  /-- the (last) access to the map -/
  | access {s t id c acc r m'} : s.pc t = .body id c acc → finish s.m c acc = some (r, m') →
      Step s { s with pc := setPc s.pc t (.held id c r), m := m' }
  /-- `RUnlock` -/
  | runlock {s t id c r} : s.pc t = .held id c r → mode c = .read →
      Step s { s with pc := setPc s.pc t (.out id c r), readers := s.readers.erase t }
  /-- `Unlock` -/
  | unlock {s t id c r} : s.pc t = .held id c r → mode c = .write →
      Step s { s with pc := setPc s.pc t (.out id c r), writer := none }
  /-- the method returns -/
  | ret {s t id c r} : s.pc t = .out id c r →
      Step s { s with pc := setPc s.pc t .idle, hist := s.hist ++ [.ret id r] }

/-- States some schedule reaches. -/
inductive Reach [Inhabited V] : St K V → Prop
  | init : Reach init
  | step {s s'} : Reach s → Step s s' → Reach s'

end Verif.SyncMap
