import Verif.PoolProg.Model
import Verif.SyncKey.Spec
/-!
# What it means that the handlers' calls are made at once, and that results are stored
-/
namespace Verif.PoolProg
open Verif.GoPool Verif.Conc Verif.Conc.RW

variable {σ A C R P : Type}

/-- The pool, the object without its lock, and where the goroutines are in their programs. -/
structure ASys (σ P : Type) where
  pool : GoPool.St
  mem : σ
  loc : Nat → P

/-- The same with every call of the object made at once. -/
inductive AtStep (o : Obj σ C R) (p : Client P C R) (entry : Nat → P) : ASys σ P → ASys σ P → Prop where
  | take {x : ASys σ P} {k w c j} : x.pool.gor k = .recv w (some c) → x.pool.buf c = some j →
      AtStep o p entry x ⟨takeJob x.pool k w c j, x.mem, setLoc x.loc (2 * k) (entry j)⟩
  | back {x : ASys σ P} {k w c j} : x.pool.gor k = .handling w c j → p.call (x.loc (2 * k)) = none →
      AtStep o p entry x ⟨x.pool.setGor k (.stamp w c), x.mem, x.loc⟩
  | pool {x : ASys σ P} {s} : GoPool.Step x.pool s → SameHandlers x.pool s → AtStep o p entry x ⟨s, x.mem, x.loc⟩
  | call {x : ASys σ P} {t c r m} : p.call (x.loc t) = some c → o.step x.mem c r m →
      AtStep o p entry x ⟨x.pool, m, setLoc x.loc t (p.resume (x.loc t) r)⟩

inductive AtReach (o : Obj σ C R) (p : Client P C R) (entry : Nat → P) (mx : Int) (n : Nat) (l : Nat → P) : ASys σ P → Prop where
  | start (tt) : AtReach o p entry mx n l ⟨GoPool.init mx n tt, o.init, l⟩
  | step {x x'} : AtReach o p entry mx n l x → AtStep o p entry x x' → AtReach o p entry mx n l x'

/-- The handler was called with job `j` and has returned. -/
def Returned (s : GoPool.St) (j : Nat) : Prop := s.handled j ≠ 0 ∧ ∀ k w c, s.gor k ≠ .handling w c j

/-- A call that leaves a concurrent map as it is. -/
def Reads {K V : Type} : SyncMap.Call K V → Prop
  | .set _ _ | .delete _ | .clear => False
  | _ => True

/-- Different jobs have different keys, none of which is a NaN. -/
def OwnKeys {K : Type} (eq : K → K → Bool) (key : Nat → K) : Prop := ∀ i j, eq (key i) (key j) = true ↔ i = j

end Verif.PoolProg
