import Verif.PoolSerial.Spec
import Verif.PoolDrain.Spec
import Verif.GoPool.Lemmas
/-!
# When a pool turns a job down

The transition system is that of `Verif.GoPool.Model`, timedpool.go.
-/
namespace Verif.PoolFull
open Verif.GoPool Verif.PoolSerial Verif.PoolFair

/-- In this step `Run` turns job `j` down although the pool is not stopped. -/
def Refused (s s' : St) (j : Nat) : Prop := Step s s' ∧ s.job j = .called ∧ s'.job j = .rejected ∧ s.maxWorkers ≠ -1

/-- `l` lists the jobs in progress: `Run` has taken them on and the handler has not returned from them. -/
def JobsAre (s : St) (l : List Nat) : Prop := l.Nodup ∧ ∀ j, j ∈ l ↔ InProgress s j

/-- The handler has returned and the goroutine has not yet put its worker on the idle list. -/
def Returning (s : St) (k : Nat) : Prop := (∃ w c, s.gor k = .stamp w c) ∨ ∃ w c, s.gor k = .free w c

/-- The goroutine is still counted and will never handle a job again, whatever happens. -/
def Leaving (s : St) (k : Nat) : Prop :=
  (s.gor k).live = true ∧ ∀ s', Later s s' → ∀ w c j, s'.gor k ≠ .handling w c j

/-- **C155 as one would have it**: a pool that is not stopped turns a job down only if `maxWorkers` jobs are in progress. -/
def C155_full : Prop := ∀ (mx : Int) (p : Nat) (s s' : St) (j : Nat), 0 < mx → Reach mx p s → Refused s s' j →
  ∃ l, JobsAre s l ∧ mx ≤ l.length

/-- `Run` takes a job on in the step from `n` to `n + 1`. -/
def TakesOnAt (σ : Nat → St) (n : Nat) : Prop := ∃ j w, (σ n).job j = .called ∧ (σ (n + 1)).job j = .sending w

end Verif.PoolFull
