import Verif.GoPool.Model
/-!
# Executions of the goroutine pool that are fair

The transition system is that of `Verif.GoPool.Model`, timedpool.go. An execution is infinite; nothing need happen in a step of it, so
executions that come to an end are included.
-/
namespace Verif.PoolFair
open Verif.GoPool

/-- An execution of a pool made with these arguments. -/
structure Exec (mx : Int) (p : Nat) (σ : Nat → St) : Prop where
  start : ∃ t, σ 0 = init mx p t
  next : ∀ n, Step (σ n) (σ (n + 1)) ∨ σ (n + 1) = σ n

/-- Some step would change `f`. -/
def Enabled {β : Type} (f : St → β) (s : St) : Prop := ∃ s', Step s s' ∧ f s' ≠ f s

/-- Weak fairness: if from some moment on `f` could change at every moment, and `on` holds, then it does change. -/
def WeaklyFair {β : Type} (on : St → Prop) (f : St → β) (σ : Nat → St) : Prop :=
  ∀ n, (∀ m, n ≤ m → on (σ m) ∧ Enabled f (σ m)) → ∃ m, n ≤ m ∧ f (σ (m + 1)) ≠ f (σ m)

/-- Every worker goroutine that could always go on and is not inside the handler goes on. Nothing is said about handlers:
any of them may never return. -/
def FairWorkers (σ : Nat → St) : Prop :=
  ∀ k, WeaklyFair (fun s => ∀ w c j, s.gor k ≠ .handling w c j) (fun s => s.gor k) σ

/-- Every call of `Run` that could always go on goes on. -/
def FairRuns (σ : Nat → St) : Prop := ∀ j, WeaklyFair (fun s => s.job j ≠ .new) (fun s => s.job j) σ

end Verif.PoolFair
