import Verif.PoolFair.Spec
/-!
# Fair executions of a pool that is stopped

Unlike in `Verif.PoolFair.Spec` handlers return. A `Stop` call waits in line 211 of timedpool.go for the collector to come to its
`select`, and there the ticker competes with it; the choice of a ready case is random, so a case that is ready again and again is taken
in the end. This is strong fairness.
-/
namespace Verif.PoolDrain
open Verif.GoPool Verif.PoolFair

/-- If from some moment on `f` could change again and again, and `on` holds then, it does change. -/
def StronglyFair {β : Type} (on : St → Prop) (f : St → β) (σ : Nat → St) : Prop :=
  ∀ n, (∀ m, n ≤ m → ∃ m', m ≤ m' ∧ on (σ m') ∧ Enabled f (σ m')) → ∃ m, n ≤ m ∧ f (σ (m + 1)) ≠ f (σ m)

/-- Everything that was started goes on when it can. -/
structure Fair (σ : Nat → St) : Prop where
  runs : FairRuns σ
  workers : ∀ k, WeaklyFair (fun _ => True) (fun s => s.gor k) σ
  collector : WeaklyFair (fun _ => True) (fun s => s.gc) σ
  stops : ∀ k, StronglyFair (fun s => s.stop k ≠ .new) (fun s => s.stop k) σ

/-- No worker goroutine is left and none is counted. -/
def Drained (s : St) : Prop := s.workers = 0 ∧ ∀ k, s.gor k = .unborn ∨ s.gor k = .dead

end Verif.PoolDrain
