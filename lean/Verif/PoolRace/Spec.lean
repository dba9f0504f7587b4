import Verif.GoPool.Model
/-!
# Data races in `poolx/gopoolx/timedpool.go`

The fields of the pool except `stop` are used only under its mutex. The fields `ch` and `tt` of the workers and the
pool's field `stop` are used outside it as well. Two goroutines race when both are about to use the same variable, one
of them writes it, and not both hold the mutex.
-/
namespace Verif.PoolRace
open Verif.GoPool

/-- The goroutines: those inside `Run`, the workers', the collector, those inside `Stop`. -/
inductive Actor where
  | run (j : Nat)
  | worker (k : Nat)
  | collector
  | stop (k : Nat)
  deriving DecidableEq

/-- The variables. -/
inductive Var where
  | ch (w : Nat)
  | tt (w : Nat)
  | stop
  deriving DecidableEq

/-- `Uses s a v write locked`: the next thing `a` does includes this use of `v`. -/
inductive Uses (s : St) : Actor → Var → Bool → Bool → Prop where
  /-- timedpool.go:162, a worker from the `sync.Pool` -/
  | runPooled (j w) : s.job j = .called → s.maxWorkers ≠ -1 → s.dobby = [] → s.workers < s.maxWorkers → w ∈ s.pool →
      Uses s (.run j) (.ch w) true true
  /-- timedpool.go:162, a new worker -/
  | runFresh (j) : s.job j = .called → s.maxWorkers ≠ -1 → s.dobby = [] → s.workers < s.maxWorkers →
      Uses s (.run j) (.ch s.nextW) true true
  /-- timedpool.go:171 -/
  | send (j w) : s.job j = .sending w → Uses s (.run j) (.ch w) false false
  /-- timedpool.go:33; `range` evaluates `w.ch` once -/
  | begin (k w) : s.gor k = .start w → Uses s (.worker k) (.ch w) false false
  /-- timedpool.go:132 -/
  | stamp (k w c) : s.gor k = .stamp w c → Uses s (.worker k) (.tt w) true false
  /-- timedpool.go:70 and 113 -/
  | select : s.gc = .idle → Uses s .collector .stop false false
  /-- timedpool.go:89 -/
  | tick (w) : s.gc = .idle → s.maxWorkers ≠ -1 → w ∈ s.dobby → Uses s .collector (.tt w) false true
  /-- timedpool.go:76 -/
  | tickDraining (w) : s.gc = .idle → s.maxWorkers = -1 → w ∈ s.dobby → Uses s .collector (.ch w) false true
  /-- timedpool.go:104 -/
  | close (w ws) : s.gc = .closing (w :: ws) → Uses s .collector (.ch w) false false
  /-- timedpool.go:105 -/
  | clearTt (w ws) : s.gc = .clearing w ws → Uses s .collector (.tt w) true false
  /-- timedpool.go:106 -/
  | clearCh (w ws) : s.gc = .clearing w ws → Uses s .collector (.ch w) true false
  /-- timedpool.go:117 -/
  | stopAll (w) : s.gc = .stopping → w ∈ s.dobby → Uses s .collector (.ch w) false true
  /-- timedpool.go:208 -/
  | stopCall (k) : s.stop k = .new → Uses s (.stop k) .stop false false
  /-- timedpool.go:211 -/
  | stopSend (k) : s.stop k = .sending → Uses s (.stop k) .stop false false
  /-- timedpool.go:212 -/
  | stopClear (k) : s.stop k = .sent → Uses s (.stop k) .stop true false

/-- A race between `a` and `b` on `v`. -/
def Race (s : St) (a b : Actor) (v : Var) : Prop :=
  a ≠ b ∧ ∃ wa la wb lb, Uses s a v wa la ∧ Uses s b v wb lb ∧ (wa = true ∨ wb = true) ∧ ¬ (la = true ∧ lb = true)

end Verif.PoolRace
