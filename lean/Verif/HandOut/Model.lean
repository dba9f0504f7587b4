import Verif.Conc.RWEnds
import Verif.Dsx.Model
/-!
# Stacks and queues of `dsx` behind a `sync.Mutex`

Goroutines share a `dsx.Stack` or a `dsx.Queue` and hold a mutex around every call. The calls and the four implementations are those of
`Verif.Dsx` (C13, C14, C17, C18). A call runs alone, so it is one step between the lock and the unlock; what the runtime decides during
it (the node from the pool, the capacity `append` chooses) is arbitrary. A panic is a result like any other when the unlock is deferred.
-/
namespace Verif.HandOut
open Verif.Conc Verif.Linked Verif.Dsx

variable {T : Type} [Inhabited T]

/-- A container behind a mutex: `fin` is the whole call, and every call takes the lock for itself. -/
def behind {σ C : Type} (init : σ) (call : σ → C → Res T → σ → Prop) : RW.Guarded σ Unit C (Res T) where
  init := init
  writes := fun _ => true
  start := ()
  iter := fun _ _ _ _ => False
  fin := fun s c _ r s' => call s c r s'

/-- slicex/stackx/stackx.go:11-43 behind a mutex, in any memory. -/
def sliceStack (h : Go.Hp T) : RW.Guarded (SliceC.St T) Unit (SOp T) (Res T) :=
  behind (SliceC.newStack h) fun s c r s' => ∃ rt x, SliceC.stackStep s (c.slice rt) = (s', x) ∧ r = ofSlice x

/-- linkedx/stackx/stackx.go:22-60 behind a mutex. -/
def linkedStack (T : Type) [Inhabited T] : RW.Guarded (Stack.Stack T) Unit (SOp T) (Res T) :=
  behind Stack.new fun s c r s' => ∃ rt, Stack.step s (c.linked rt) = (s', r)

/-- linkedx/queuex/queuex.go:22-61 behind a mutex. -/
def linkedQueue (T : Type) [Inhabited T] : RW.Guarded (Queue.Queue T) Unit (QOp T) (Res T) :=
  behind Queue.new fun s c r s' => ∃ rt, Queue.step s (c.linked rt) = (s', r)

/-- slicex/queuex/queuex.go:28-67 behind a mutex; `q` is what `New` returned. -/
def ringQueue (q : Ring.Ring T) : RW.Guarded (Ring.Ring T) Unit (QOp T) (Res T) :=
  behind q fun s c r s' => ∃ x, Ring.step s c.ring = (s', x) ∧ r = ofRing x

/-- A step when the unlock is not deferred: a goroutine whose call panicked leaves the lock as it is. (What it does after a `recover` is
done by another goroutine here.) -/
def NoDefer {σ C : Type} (g : RW.Guarded σ Unit C (Res T)) (s s' : RW.St σ Unit C (Res T)) : Prop :=
  RW.Step g s s' ∧ ∀ t id c, s.pc t = .held id c .panic → s'.pc t = .held id c .panic

/-- States some schedule reaches without deferred unlocks. -/
inductive ReachND {σ C : Type} (g : RW.Guarded σ Unit C (Res T)) : RW.St σ Unit C (Res T) → Prop
  | init : ReachND g (RW.start g)
  | step {s s'} : ReachND g s → NoDefer g s s' → ReachND g s'

end Verif.HandOut
