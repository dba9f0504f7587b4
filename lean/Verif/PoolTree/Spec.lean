import Verif.PoolTree.Model
import Verif.PoolFair.Spec
/-!
# What it means to walk trees of jobs
-/
namespace Verif.PoolTree
open Verif.GoPool

/-- The jobs are those of trees: every job has one place, and no job is below itself. -/
structure Trees (sub roots : Nat → List Nat) : Prop where
  subs : ∀ i, (sub i).Nodup
  parent : ∀ i i' j, j ∈ sub i → j ∈ sub i' → i = i'
  tops : ∀ a, (roots a).Nodup
  top : ∀ a a' j, j ∈ roots a → j ∈ roots a' → a = a'
  apart : ∀ a i j, j ∈ roots a → j ∉ sub i
  deep : WellFounded (fun c i => c ∈ sub i)

/-- The jobs of the trees. -/
inductive In (sub roots : Nat → List Nat) : Nat → Prop where
  | top {a j} : j ∈ roots a → In sub roots j
  | sub {i j} : In sub roots i → j ∈ sub i → In sub roots j

/-- Nobody has anything left to do: no program, no call of `Run`, no job that waits in a channel. -/
structure Quiet (t : Sys) : Prop where
  todo : ∀ a, t.todo a = []
  jobs : ∀ j, t.pool.job j ≠ .called ∧ (∀ w, t.pool.job j ≠ .sending w) ∧ (t.pool.job j = .accepted → t.pool.handled j = 1)

/-- An infinite execution; nothing need happen in a step of it. -/
structure TExec (mx : Int) (p : Nat) (sub roots : Nat → List Nat) (τ : Nat → Sys) : Prop where
  start : ∃ tt, τ 0 = start mx p tt roots
  next : ∀ n, TStep sub (τ n) (τ (n + 1)) ∨ τ (n + 1) = τ n

/-- Programs go on when they always could, handlers with nothing left to do return, and so do the pool's own goroutines and
calls of `Run`. -/
structure Fair (sub : Nat → List Nat) (τ : Nat → Sys) : Prop where
  runs : PoolFair.FairRuns (fun n => (τ n).pool)
  workers : PoolFair.FairWorkers (fun n => (τ n).pool)
  programs : ∀ a n, (∀ m, n ≤ m → ∃ t', TStep sub (τ m) t' ∧ t'.todo a ≠ (τ m).todo a) →
    ∃ m, n ≤ m ∧ (τ (m + 1)).todo a ≠ (τ m).todo a
  backs : ∀ k n, (∀ m, n ≤ m → (∃ w c j, (τ m).pool.gor k = .handling w c j) ∧ (τ m).todo (.worker k) = []) →
    ∃ m, n ≤ m ∧ (τ (m + 1)).pool.gor k ≠ (τ m).pool.gor k

end Verif.PoolTree
