import Verif.Sleep.Model
/-!
# Fair executions of a Sleeper

The transition system is that of `Verif.Sleep.Model`, sleepx.go. An execution is infinite; nothing need
happen in a step of it, so executions that come to an end are included.
-/
namespace Verif.SleepFair
open Verif.Sleep

/-- An execution of a new `Sleeper`. -/
structure Exec (σ : Nat → St) : Prop where
  start : σ 0 = init
  next : ∀ n, (∃ g, Step g (σ n) (σ (n + 1))) ∨ σ (n + 1) = σ n

/-- A goroutine inside a call that could always go on goes on. For a sleep with a timer this says that
the timer fires in the end. -/
def Fair (σ : Nat → St) : Prop := ∀ g n,
  (∀ m, n ≤ m → ((σ m).pc g).free = false ∧ ∃ s', Step g (σ m) s') → ∃ m, n ≤ m ∧ (σ (m + 1)).pc g ≠ (σ m).pc g

/-- Goroutine `w` is the only one that ever calls `Wakeup`. -/
def OnlyWaker (w : Nat) (σ : Nat → St) : Prop := ∀ g n, (σ n).pc g = .load → g = w

/-- Goroutine `w` calls `Wakeup` again and again. -/
def KeepsWaking (w : Nat) (σ : Nat → St) : Prop := ∀ n, ∃ m, n ≤ m ∧ (σ m).pc w = .load

/-- The goroutine is inside a `SleepForever` (or, with `false`, a `SleepFor` or `SleepUntil`) that has
not been woken. -/
def InSleep (forever : Bool) (p : Pc) : Prop := p = .tryCas forever ∨ p = .readCtx forever ∨ ∃ c, p = .wait c forever

/-- The call of `Sleep...` in which `g` is at time `n` returns. -/
def SleepReturns (σ : Nat → St) (g n : Nat) : Prop := ∃ m b, n ≤ m ∧ (σ m).pc g = .sleepRet b

end Verif.SleepFair
