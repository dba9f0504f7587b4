import Verif.Decouple.Model
/-!
# Model of `iox/decouplex/decouple.go` with any number of goroutines that call `Next`

The steps of `Write` are those of `Verif.Decouple`. `Next` is finer than there: the test of the length and the read of `_read`
are two steps, and so are the two halves of `d._read++`, which is not atomic.
-/
namespace Verif.DecMulti
open Verif.Decouple

variable {α : Type}

/-- A goroutine that calls `Next` again and again, decouple.go:76-101. -/
inductive NPc where
  | idle                -- before line 77
  | got                 -- line 80
  | spin (idx : Nat)    -- line 85
  | view (idx : Nat)    -- line 94
  | clear (idx : Nat)   -- line 96
  | decr                -- line 97
  | load                -- line 98, reading
  | store (r : Nat)     -- line 98, writing
  deriving DecidableEq

/-- The decoupler and its writers (`st`, where the field `rpc` is not used), and the readers. -/
structure MSt (α : Type) where
  st : St α
  rpc : Nat → NPc

def MSt.at (m : MSt α) (a : Nat) (p : NPc) : MSt α := { m with rpc := fun b => if b = a then p else m.rpc b }

inductive MStep (size : Nat) (payload : Nat → List α) : MSt α → MSt α → Prop where
  /-- a step inside `Write`, decouple.go:48-74 -/
  | write (m) (st' : St α) : Step size payload m.st st' → st'.rpc = .idle → MStep size payload m { m with st := st' }
  | none (m) (a : Nat) : m.rpc a = .idle → m.st.len = 0 → MStep size payload m m
  | some (m) (a : Nat) : m.rpc a = .idle → m.st.len ≠ 0 → MStep size payload m (m.at a .got)
  | div (m) (a : Nat) : m.rpc a = .got → size = 0 → MStep size payload m { m with st := { m.st with crashed := true } }
  | read (m) (a : Nat) : m.rpc a = .got → size ≠ 0 → MStep size payload m (m.at a (.spin (slot size m.st.rd)))
  | wait (m) (a i : Nat) : m.rpc a = .spin i → (m.st.lock i = emptyL ∨ m.st.lock i = busyL) → MStep size payload m m
  | found (m) (a i : Nat) : m.rpc a = .spin i → m.st.lock i ≠ emptyL → m.st.lock i ≠ busyL → MStep size payload m (m.at a (.view i))
  | view (m) (a i : Nat) : m.rpc a = .view i →
      MStep size payload m ({ m with st := { m.st with log := m.st.log ++ [m.st.buf i] } }.at a (.clear i))
  | clear (m) (a i : Nat) : m.rpc a = .clear i →
      MStep size payload m ({ m with st := { m.st with lock := fun x => if x = i then emptyL else m.st.lock x } }.at a .decr)
  | decr (m) (a : Nat) : m.rpc a = .decr →
      MStep size payload m ({ m with st := { m.st with len := (m.st.len + (W - 1)) % W } }.at a .load)
  | load (m) (a : Nat) : m.rpc a = .load → MStep size payload m (m.at a (.store m.st.rd))
  | store (m) (a r : Nat) : m.rpc a = .store r →
      MStep size payload m ({ m with st := { m.st with rd := (r + 1) % W } }.at a .idle)

inductive MReach (size : Nat) (payload : Nat → List α) : MSt α → Prop where
  | init : MReach size payload ⟨init, fun _ => .idle⟩
  | step {m m' : MSt α} : MReach size payload m → MStep size payload m m' → MReach size payload m'

/-- At most one goroutine is inside `Next`. -/
def Alone (m : MSt α) : Prop := ∀ a b, m.rpc a ≠ .idle → m.rpc b ≠ .idle → a = b

/-- Executions in which calls of `Next` do not overlap. -/
inductive SReach (size : Nat) (payload : Nat → List α) : MSt α → Prop where
  | init : SReach size payload ⟨init, fun _ => .idle⟩
  | step {m m' : MSt α} : SReach size payload m → MStep size payload m m' → Alone m' → SReach size payload m'

end Verif.DecMulti
