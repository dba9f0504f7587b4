import Verif.Prelude
import Verif.Go.Basic
/-!
# Model of `osx/closex/closex.go`

The goroutine started by `HandleKillSig` and the operating system as a transition system. The handler
returns each time it is called. `signal.Notify` does not block: a signal that finds the channel (capacity
1) full is lost.
-/
namespace Verif.KillSig

/-- The goroutine, closex.go:21-27. -/
inductive Pc where
  | wait      -- line 22
  | handling  -- line 24
  | closing   -- line 25
  deriving DecidableEq

structure St where
  full : Bool       -- a signal waits in `sigChannel`
  pc : Pc
  received : Nat    -- signals taken from the channel
  runs : Nat        -- completed calls of the handler
  closed : Bool     -- `intr.C`
  crashed : Bool    -- close of a closed channel: the program ends

/-- closex.go:14-29. -/
def init : St := ⟨false, .wait, 0, 0, false, false⟩

inductive Step : St → St → Prop where
  | signal (s) : s.crashed = false → Step s { s with full := true }
  | take (s) : s.crashed = false → s.pc = .wait → s.full = true →
      Step s { s with full := false, pc := .handling, received := s.received + 1 }
  | handle (s) : s.crashed = false → s.pc = .handling → Step s { s with pc := .closing, runs := s.runs + 1 }
  | close (s) : s.crashed = false → s.pc = .closing → s.closed = false → Step s { s with pc := .wait, closed := true }
  | closeCrash (s) : s.crashed = false → s.pc = .closing → s.closed = true → Step s { s with crashed := true }

inductive Reach : St → Prop where
  | init : Reach init
  | step {s s' : St} : Reach s → Step s s' → Reach s'

end Verif.KillSig
