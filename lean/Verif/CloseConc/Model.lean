import Verif.Prelude
/-!
# Model of `iox/managerx/closex/manager.go` in concurrent use, with closers that use managers

Goroutines and managers are numbered; each goroutine runs a list of calls. A closer is a number `c`; `body c` is
the list of calls of managers that its `Close` makes, so calls nest: a manager that was appended to a manager is a
closer whose body is one call of `Close`. What the closers return is the matter of `Verif.CloseMgr`. The lock of a
manager is a `sync.Mutex`; it belongs to no goroutine, so a goroutine that locks it twice waits for itself.
-/
namespace Verif.CloseConc

/-- The methods of the manager `m`. -/
inductive Call where
  | append (m c : Nat)
  | close (m : Nat)
  deriving DecidableEq

/-- What a goroutine has still to do. -/
inductive Act where
  | call (c : Call)
  | add (m c : Nat)             -- in `Append`, holds the lock
  | start (m : Nat)             -- in `Close`, holds the lock, the loop is next
  | loop (m : Nat) (cs : List Nat) -- in the loop of `Close`; `cs`: the closers that are left
  | unlock (m : Nat)            -- the deferred unlock
  deriving DecidableEq

/-- What has happened, in order. -/
inductive Ev where
  | added (t m c : Nat)
  | began (t m : Nat)
  | closed (t m c : Nat)   -- `Close` of the closer `c` was called by a `Close` of `m`
  | ended (t m : Nat)
  deriving DecidableEq

/-- The managers (manager.go:14-17): their lists and locks; the goroutines; and (observed only) the events. -/
structure St where
  list : Nat → List Nat
  mu : Nat → Option Nat
  thr : Nat → List Act
  log : List Ev

/-- Goroutine `t` has `l` still to do. -/
def St.to (s : St) (t : Nat) (l : List Act) : St := { s with thr := fun u => if u = t then l else s.thr u }

/-- The lock of `m` becomes `o`. -/
def St.lock (s : St) (m : Nat) (o : Option Nat) : St := { s with mu := fun k => if k = m then o else s.mu k }

/-- One step of goroutine `t`: `Append` manager.go:19-23, `Close` manager.go:25-40. -/
inductive Step (body : Nat → List Call) (t : Nat) : St → St → Prop where
  | lockA (s m c rest) : s.thr t = .call (.append m c) :: rest → s.mu m = none →
      Step body t s ((s.lock m (some t)).to t (.add m c :: rest))
  | add (s m c rest) : s.thr t = .add m c :: rest →
      Step body t s ({ s with list := fun k => if k = m then s.list m ++ [c] else s.list k,
                              log := s.log ++ [Ev.added t m c] }.to t (.unlock m :: rest))
  | lockC (s m rest) : s.thr t = .call (.close m) :: rest → s.mu m = none →
      Step body t s ((s.lock m (some t)).to t (.start m :: rest))
  | start (s m rest) : s.thr t = .start m :: rest →
      Step body t s ({ s with log := s.log ++ [Ev.began t m] }.to t (.loop m (s.list m) :: rest))
  | run (s m c cs rest) : s.thr t = .loop m (c :: cs) :: rest →
      Step body t s ({ s with log := s.log ++ [Ev.closed t m c] }.to t
        ((body c).map Act.call ++ Act.loop m cs :: rest))
  | done (s m rest) : s.thr t = .loop m [] :: rest →
      Step body t s ({ s with log := s.log ++ [Ev.ended t m] }.to t (.unlock m :: rest))
  | unlock (s m rest) : s.thr t = .unlock m :: rest → Step body t s ((s.lock m none).to t rest)

/-- The start: the managers are those of `New` (manager.go:10-12). -/
def start (prog : Nat → List Call) : St := ⟨fun _ => [], fun _ => none, fun t => (prog t).map .call, []⟩

/-- The states executions reach. -/
inductive Reach (body : Nat → List Call) (prog : Nat → List Call) : St → Prop where
  | start : Reach body prog (start prog)
  | step {s s' t} : Reach body prog s → Step body t s s' → Reach body prog s'

/-- `s'` is reached from `s`. -/
inductive Steps (body : Nat → List Call) (s : St) : St → Prop where
  | refl : Steps body s s
  | step {s' s'' t} : Steps body s s' → Step body t s' s'' → Steps body s s''

end Verif.CloseConc
