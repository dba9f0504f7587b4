import Verif.GoPool.Model
import Verif.Conc.Client
import Verif.SyncKey.Model
/-!
# Handlers that use an object shared with others

The handler of a pool (`Verif.GoPool.Model`, timedpool.go) runs a program over an object behind a lock (`Verif.Conc.Client`), which it shares
with the handlers of other jobs and with goroutines outside. The object's goroutine `2 * k` is the pool's worker goroutine `k`, the goroutine
`2 * a + 1` is the goroutine `a` outside.
-/
namespace Verif.PoolProg
open Verif.GoPool Verif.Conc Verif.Conc.RW

/-- The pool and the object with its users. -/
structure Sys (σ A C R P : Type) where
  pool : GoPool.St
  prog : CSt σ A C R P

variable {σ A C R P : Type}

/-- timedpool.go:33: a worker goroutine takes a job from its channel. -/
def takeJob (s : GoPool.St) (k w c j : Nat) : GoPool.St :=
  { s with buf := fun x => if x = c then none else s.buf x,
           handled := fun i => if i = j then s.handled i + 1 else s.handled i }.setGor k (.handling w c j)

/-- No handler begins or returns. -/
def SameHandlers (s s' : GoPool.St) : Prop := ∀ k w c j, s'.gor k = .handling w c j ↔ s.gor k = .handling w c j

/-- `entry j`: where the handler starts when it is called with job `j`. -/
inductive PStep (g : Guarded σ A C R) (p : Client P C R) (entry : Nat → P) : Sys σ A C R P → Sys σ A C R P → Prop where
  /-- timedpool.go:33-34: a worker has taken a job and calls the handler -/
  | take {x : Sys σ A C R P} {k w c j} : x.pool.gor k = .recv w (some c) → x.pool.buf c = some j →
      PStep g p entry x ⟨takeJob x.pool k w c j, ⟨x.prog.obj, setLoc x.prog.loc (2 * k) (entry j)⟩⟩
  /-- timedpool.go:34-35: the handler returns at the end of its program -/
  | back {x : Sys σ A C R P} {k w c j} : x.pool.gor k = .handling w c j → x.prog.obj.pc (2 * k) = .idle →
      p.call (x.prog.loc (2 * k)) = none → PStep g p entry x ⟨x.pool.setGor k (.stamp w c), x.prog⟩
  /-- what the pool does otherwise: calls of `Run`, the rest of the workers, the collector, `Stop` -/
  | pool {x : Sys σ A C R P} {s} : GoPool.Step x.pool s → SameHandlers x.pool s → PStep g p entry x ⟨s, x.prog⟩
  /-- a program goes on -/
  | prog {x : Sys σ A C R P} {y} : CStep g p x.prog y → PStep g p entry x ⟨x.pool, y⟩

/-- A new pool and a new object; `l (2 * a + 1)` is the program of the goroutine `a` outside. -/
inductive PReach (g : Guarded σ A C R) (p : Client P C R) (entry : Nat → P) (mx : Int) (n : Nat) (l : Nat → P) : Sys σ A C R P → Prop where
  | start (tt) : PReach g p entry mx n l ⟨GoPool.init mx n tt, ⟨RW.start g, l⟩⟩
  | step {x x'} : PReach g p entry mx n l x → PStep g p entry x x' → PReach g p entry mx n l x'

/-! ## Storing results -/

/-- Where a goroutine is: a worker outside the handler or done with it, a worker that is to store the result of a job, a goroutine outside. -/
inductive Local (Q : Type) where
  | off
  | store (j : Nat)
  | other (q : Q)

/-- The handler of job `j` is `m.Set(key(j), val(j))`; the goroutines outside run programs `q`. -/
def storing {K V Q : Type} (key : Nat → K) (val : Nat → V) (q : Client Q (SyncMap.Call K V) (SyncMap.Res K V)) :
    Client (Local Q) (SyncMap.Call K V) (SyncMap.Res K V) where
  call
    | .off => none
    | .store j => some (.set (key j) (val j))
    | .other s => q.call s
  resume
    | .other s, r => .other (q.resume s r)
    | _, _ => .off

/-- At the start the workers are outside. -/
def outside {Q : Type} (l : Nat → Q) (t : Nat) : Local Q := if t % 2 = 0 then .off else .other (l (t / 2))

end Verif.PoolProg
