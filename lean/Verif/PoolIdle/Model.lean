import Verif.GoPool.Model
/-!
# `poolx/gopoolx/timedpool.go` with a clock

The pool of `Verif.GoPool` with a clock that does not go back. The steps of the pool take their clock readings from it:
the stamp of line 132 and the limit of line 82. All other steps are those of `Verif.GoPool.Step`.
-/
namespace Verif.PoolIdle
open Verif.GoPool

/-- The pool, the time, and two times nobody reads: when each worker's handler returned last (or the worker was made), and
when the worker was last put into the idle list. -/
structure TSt where
  s : St
  clock : Int
  done : Nat → Int
  back : Nat → Int

/-- A step without a clock reading and without an event to remember: no goroutine moves on inside lines 34-136, except that it
ends in line 137; and the collector does not collect. -/
def Untimed (s s' : St) : Prop :=
  (∀ k, match s.gor k with
    | .handling _ _ _ | .stamp _ _ | .free _ _ => s'.gor k = s.gor k ∨ s'.gor k = .dead
    | _ => True) ∧
  (s.gc = .idle → ∀ ws, s'.gc ≠ .closing ws)

/-- One step. `idle` is the pool's `idleTimeout`. Nobody takes longer than `δ` from the return of the handler to the append in
line 139. -/
inductive TStep (idle δ : Int) : TSt → TSt → Prop where
  | wait (T : TSt) (d : Int) : 0 ≤ d → TStep idle δ T { T with clock := T.clock + d }
  | other (T : TSt) (s' : St) : Step T.s s' → Untimed T.s s' → TStep idle δ T { T with s := s' }
  /-- timedpool.go:34, the handler returns -/
  | done (T : TSt) (k w c j : Nat) : T.s.gor k = .handling w c j →
      TStep idle δ T { T with s := T.s.setGor k (.stamp w c), done := fun x => if x = w then T.clock else T.done x }
  /-- timedpool.go:132 -/
  | stamp (T : TSt) (k w c : Nat) : T.s.gor k = .stamp w c →
      TStep idle δ T { T with s := { T.s with tt := fun x => if x = w then T.clock else T.s.tt x }.setGor k (.free w c) }
  /-- timedpool.go:133-141, the pool not stopped -/
  | back (T : TSt) (k w c : Nat) : T.s.gor k = .free w c → T.s.maxWorkers ≠ -1 → T.clock - T.done w ≤ δ →
      TStep idle δ T { T with s := { T.s with dobby := T.s.dobby ++ [w] }.setGor k (.recv w (some c)),
                              back := fun x => if x = w then T.clock else T.back x }
  /-- timedpool.go:72-100 -/
  | tick (T : TSt) (l : Nat) : T.s.gc = .idle → T.s.maxWorkers ≠ -1 →
      cut (T.s.dobby.map T.s.tt) (T.clock - idle) = some l →
      TStep idle δ T { T with s := { T.s with dobby := T.s.dobby.drop l, gc := .closing (T.s.dobby.take l) } }

/-- A new pool; its workers are stamped one after the other, timedpool.go:55-60. -/
def tinit (mx : Int) (p : Nat) (t : Nat → Int) (clock : Int) : TSt := ⟨init mx p t, clock, t, t⟩

inductive TReach (mx : Int) (p : Nat) (idle δ : Int) : TSt → Prop where
  | init (t : Nat → Int) (clock : Int) : (∀ i j, i ≤ j → t i ≤ t j) → (∀ i, t i ≤ clock) → TReach mx p idle δ (tinit mx p t clock)
  | step {T T' : TSt} : TReach mx p idle δ T → TStep idle δ T T' → TReach mx p idle δ T'

end Verif.PoolIdle
