import Verif.Prelude
import Verif.Go.Basic
/-!
# Model of several calls of `HandleKillSig` (osx/closex/closex.go:14-29) in one program

A program calls `HandleKillSig` `n` times, and the handlers wait for each other: handler `i` receives from the channels `C` of the
registrations `deps i`, in this order, does its work and returns. All registrations are there before the first signal. The runtime
sends a signal to one registration after the other, in any order, and takes the next signal when it is through; a signal that finds a
channel (capacity 1) full is lost for it. Handlers do not panic.
-/
namespace Verif.KillMany

/-- The goroutine of one registration, closex.go:21-27. -/
inductive Pc where
  | wait                         -- line 22
  | handling (left : List Nat)   -- line 24; the channels it still has to receive from
  | closing                      -- line 25
  deriving DecidableEq

structure St where
  due : List Nat          -- registrations the signal has not been sent to
  full : Nat → Bool       -- a signal waits in `sigChannel`
  pc : Nat → Pc
  runs : Nat → Nat        -- completed calls of the handler
  closed : Nat → Bool     -- `intr.C`
  crashed : Bool          -- close of a closed channel: the program ends
  signals : Nat           -- signals that came

/-- `f` with another value at `i`. -/
def upd {α : Type} (f : Nat → α) (i : Nat) (v : α) : Nat → α := fun j => if j = i then v else f j

/-- closex.go:14-29, all registrations made. -/
def init : St := ⟨[], fun _ => false, fun _ => .wait, fun _ => 0, fun _ => false, false, 0⟩

/-- The steps of the goroutines and of the runtime. -/
inductive Quiet (deps : Nat → List Nat) : St → St → Prop where
  | send {s i} : s.crashed = false → i ∈ s.due → Quiet deps s { s with due := s.due.erase i, full := upd s.full i true }
  | take {s i} : s.crashed = false → s.pc i = .wait → s.full i = true →
      Quiet deps s { s with full := upd s.full i false, pc := upd s.pc i (.handling (deps i)) }
  | await {s i j l} : s.crashed = false → s.pc i = .handling (j :: l) → s.closed j = true →
      Quiet deps s { s with pc := upd s.pc i (.handling l) }
  | handled {s i} : s.crashed = false → s.pc i = .handling [] →
      Quiet deps s { s with pc := upd s.pc i .closing, runs := upd s.runs i (s.runs i + 1) }
  | close {s i} : s.crashed = false → s.pc i = .closing → s.closed i = false →
      Quiet deps s { s with pc := upd s.pc i .wait, closed := upd s.closed i true }
  | closeCrash {s i} : s.crashed = false → s.pc i = .closing → s.closed i = true → Quiet deps s { s with crashed := true }

/-- A step, or another signal. -/
inductive Step (n : Nat) (deps : Nat → List Nat) : St → St → Prop where
  | quiet {s s'} : Quiet deps s s' → Step n deps s s'
  | signal {s} : s.crashed = false → s.due = [] → Step n deps s { s with due := List.range n, signals := s.signals + 1 }

inductive Reach (n : Nat) (deps : Nat → List Nat) : St → Prop where
  | init : Reach n deps init
  | step {s s'} : Reach n deps s → Step n deps s s' → Reach n deps s'

end Verif.KillMany
