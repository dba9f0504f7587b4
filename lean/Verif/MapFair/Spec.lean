import Verif.Conc.RWFair
/-!
# C175, the statement: no call waits for ever

The executions are those of `Verif.Conc.RWFair`: endless, with any number of goroutines that go on calling. The methods are the models named in the theorems
(dsx/mapx/syncmapx/syncmapx.go:18-74, dsx/mapx/sklmapx, dsx/mapx/ordmapx, dsx/slicex, dsx/linkedx).
-/
namespace Verif.MapFair
open Verif.Conc Verif.Conc.RW

variable {σ A C R : Type}

/-- Every call that was made returns. -/
def AllReturn (hist : Nat → List (Event C R)) : Prop := ∀ n id c, Event.inv id c ∈ hist n → ∃ m r, n ≤ m ∧ Event.ret id r ∈ hist m

/-- A step of goroutine `t` when the lock does not prefer who wants to write. -/
def StepBy (g : Guarded σ A C R) (t : Nat) (s s' : St σ A C R) : Prop :=
  Step g s s' ∧ s'.pc t ≠ s.pc t ∧ ∀ u, u ≠ t → s'.pc u = s.pc u

/-- An endless execution with such a lock, from a state that can be reached. -/
structure Free (g : Guarded σ A C R) (e : Nat → St σ A C R) (who : Nat → Nat) : Prop where
  zero : Reach g (e 0)
  step : ∀ n, StepBy g (who n) (e n) (e (n + 1))
  /-- It is fair in the same way. -/
  fair : ∀ n t, (e n).pc t ≠ .idle → (∀ k, ∃ m, k ≤ m ∧ ∃ y, StepBy g t (e m) y) → ∃ m, n ≤ m ∧ who m = t

end Verif.MapFair
