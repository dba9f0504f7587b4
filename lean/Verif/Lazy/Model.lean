import Verif.Prelude
/-!
# Model of `functionalx/lazyx/lazy.go`

Any number of goroutines call `Get`, any number of times each; their steps interleave arbitrarily.
`sync.Once.Do` is modelled as the standard library has it: load `done`; if it is not set, lock the
mutex, check again, run the function with two deferred steps (set `done`, then unlock) that also
happen when it panics. The constructor may return any value, panic, or never return; it does not call
`Get` on the same `Lazy` (that would deadlock).
-/
namespace Verif.Lazy

variable {T : Type} [Inhabited T]

/-- Where a goroutine is. -/
inductive Pc (T : Type) where
  | idle
  | load              -- `Do`: about to load `done`
  | lock              -- about to lock the mutex
  | check             -- holds the mutex, about to check `done` again
  | run               -- the constructor is running
  | write (v : T)     -- the constructor returned `v`, `l.value = v` is next
  | done (p : Bool)   -- deferred: about to set `done`; `p`: a panic is unwinding
  | unlock (p : Bool) -- deferred: about to unlock
  | read              -- about to read `l.value`
  | ret (v : T)       -- `Get` has returned `v`
  | panicked          -- `Get` has panicked
  deriving DecidableEq

/-- The fields of `Lazy` and of its `sync.Once`, the goroutines, and (observed only) how often the
constructor was started, whether its run has ended, and what it returned. -/
structure St (T : Type) where
  done : Bool
  mu : Option Nat
  value : T
  pc : Nat → Pc T
  starts : Nat
  ended : Bool
  result : Option T

/-- lazy.go:5-9 `New`. -/
def init : St T := ⟨false, none, default, fun _ => .idle, 0, false, none⟩

def St.at (s : St T) (g : Nat) (p : Pc T) : St T := { s with pc := fun h => if h = g then p else s.pc h }

/-- One step of goroutine `g` (lazy.go:17-23 `Get`; sync/once.go `Do` and `doSlow`). -/
inductive Step (g : Nat) : St T → St T → Prop where
  | call (s) : (s.pc g = .idle ∨ (∃ v, s.pc g = .ret v) ∨ s.pc g = .panicked) → Step g s (s.at g .load)
  | loadSet (s) : s.pc g = .load → s.done = true → Step g s (s.at g .read)
  | loadUnset (s) : s.pc g = .load → s.done = false → Step g s (s.at g .lock)
  | lock (s) : s.pc g = .lock → s.mu = none → Step g s ({ s with mu := some g }.at g .check)
  | checkSet (s) : s.pc g = .check → s.done = true → Step g s (s.at g (.unlock false))
  | checkUnset (s) : s.pc g = .check → s.done = false →
      Step g s ({ s with starts := s.starts + 1 }.at g .run)
  | ctorRet (s) (v : T) : s.pc g = .run → Step g s ({ s with ended := true, result := some v }.at g (.write v))
  | ctorPanic (s) : s.pc g = .run → Step g s ({ s with ended := true }.at g (.done true))
  | write (s) (v : T) : s.pc g = .write v → Step g s ({ s with value := v }.at g (.done false))
  | setDone (s) (p : Bool) : s.pc g = .done p → Step g s ({ s with done := true }.at g (.unlock p))
  | unlock (s) : s.pc g = .unlock false → Step g s ({ s with mu := none }.at g .read)
  | unlockPanic (s) : s.pc g = .unlock true → Step g s ({ s with mu := none }.at g .panicked)
  | read (s) : s.pc g = .read → Step g s (s.at g (.ret s.value))

/-- The states executions reach. -/
inductive Reach : St T → Prop where
  | init : Reach init
  | step {s s' : St T} {g : Nat} : Reach s → Step g s s' → Reach s'

end Verif.Lazy
