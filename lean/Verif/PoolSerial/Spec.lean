import Verif.GoPool.Model
/-!
# How many jobs a pool works on at the same time
-/
namespace Verif.PoolSerial
open Verif.GoPool

/-- `Run` has taken the job on and the handler has not returned from it: its `Run` call has a worker, or it waits in a
channel, or the handler is running with it. -/
def InProgress (s : St) (j : Nat) : Prop :=
  (∃ w, s.job j = .sending w) ∨ (∃ c, s.buf c = some j) ∨ ∃ k w c, s.gor k = .handling w c j

/-- No more than `n` jobs are in progress. -/
def AtMost (n : Int) (s : St) : Prop := ∀ l : List Nat, l.Nodup → (∀ j ∈ l, InProgress s j) → (l.length : Int) ≤ n

/-- In this step `Run` takes job `j` on. -/
def TakesOn (s s' : St) (j : Nat) : Prop := Step s s' ∧ s.job j = .called ∧ ∃ w, s'.job j = .sending w

end Verif.PoolSerial
