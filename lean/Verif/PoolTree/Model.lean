import Verif.GoPool.Model
/-!
# Handlers that give their own pool more work

A program over `TimedPool` (timedpool.go): the handler of a job passes the job's children to `Run` one after the other
and, when `Run` returns false, calls itself with that child. Some goroutines outside do the same with the jobs they start
from. The pool is that of `Verif.GoPool.Model`; `Stop` may be called at any time, by anybody.

```go
func handler(j job) {
	visit(j)
	for _, c := range j.children {
		if !pool.Run(c) {
			handler(c)
		}
	}
}
```
-/
namespace Verif.PoolTree
open Verif.GoPool

/-- Who runs the program: the worker goroutines (timedpool.go:34 calls the handler), and goroutines outside. -/
inductive Who where
  | worker (k : Nat)
  | outside (a : Nat)
  deriving DecidableEq

/-- What remains to be done. -/
inductive Item where
  | run (j : Nat)    -- `if !pool.Run(j) { handler(j) }`
  | wait (j : Nat)   -- in that call of `Run`, or just back from it
  | visit (j : Nat)  -- `handler(j)`
  deriving DecidableEq

structure Sys where
  pool : St
  todo : Who → List Item
  seen : Nat → Nat  -- how often `visit` was called with each job

def Sys.set (t : Sys) (a : Who) (l : List Item) : Sys := { t with todo := fun b => if b = a then l else t.todo b }

/-- In this step of the pool nobody calls `Run`, no handler begins and none returns. -/
structure Inner (s s' : St) : Prop where
  step : Step s s'
  jobs : ∀ j, s'.job j = .called → s.job j = .called
  gors : ∀ k w c j, s'.gor k = .handling w c j ↔ s.gor k = .handling w c j

/-- `sub j`: the children of job `j`. -/
inductive TStep (sub : Nat → List Nat) : Sys → Sys → Prop where
  /-- timedpool.go:144 -/
  | call (t a j rest) : t.todo a = .run j :: rest → t.pool.job j = .new →
      TStep sub t ({ t with pool := t.pool.setJob j .called }.set a (.wait j :: rest))
  /-- timedpool.go:172 -/
  | accepted (t a j rest) : t.todo a = .wait j :: rest → t.pool.job j = .accepted → TStep sub t (t.set a rest)
  /-- timedpool.go:150 and 166 -/
  | rejected (t a j rest) : t.todo a = .wait j :: rest → t.pool.job j = .rejected → TStep sub t (t.set a (.visit j :: rest))
  | visit (t a j rest) : t.todo a = .visit j :: rest →
      TStep sub t ({ t with seen := fun i => if i = j then t.seen i + 1 else t.seen i }.set a ((sub j).map Item.run ++ rest))
  /-- timedpool.go:33-34: a worker has taken a job and calls the handler -/
  | take (t k w c j) : t.pool.gor k = .recv w (some c) → t.pool.buf c = some j →
      TStep sub t ({ t with pool := { t.pool with
          buf := fun x => if x = c then none else t.pool.buf x,
          handled := fun i => if i = j then t.pool.handled i + 1 else t.pool.handled i }.setGor k (.handling w c j) }.set
        (.worker k) [.visit j])
  /-- timedpool.go:34-35: the handler returns when nothing is left to do -/
  | back (t k w c j) : t.pool.gor k = .handling w c j → t.todo (.worker k) = [] →
      TStep sub t { t with pool := t.pool.setGor k (.stamp w c) }
  /-- what the pool does otherwise: the rest of `Run`, the workers, the collector, `Stop` -/
  | inner (t s') : Inner t.pool s' → TStep sub t { t with pool := s' }

/-- A new pool, and goroutines outside that are to run the jobs `roots a`. -/
def start (mx : Int) (p : Nat) (tt : Nat → Int) (roots : Nat → List Nat) : Sys where
  pool := init mx p tt
  todo := fun
    | .outside a => (roots a).map Item.run
    | .worker _ => []
  seen := fun _ => 0

inductive TReach (mx : Int) (p : Nat) (sub roots : Nat → List Nat) : Sys → Prop where
  | start (tt) : TReach mx p sub roots (start mx p tt roots)
  | step {t t'} : TReach mx p sub roots t → TStep sub t t' → TReach mx p sub roots t'

end Verif.PoolTree
