import Verif.Prelude
import Verif.Go.Basic
/-!
# Model of `timex/sleepx/sleepx.go`

One `Sleeper` used by any number of goroutines, each calling any of its methods any number of times;
their steps interleave arbitrarily. Contexts are numbered in the order of their creation; `cancel` of a
context makes its `Done` channel ready for ever. The fields `ctx` and `cancel` are plain variables, so
each read and each write is one step (an interface is two words; both contexts have the same type word,
so a torn read gives one of the two contexts).
-/
namespace Verif.Sleep
open Verif.Go

inductive Pc where
  | idle
  | tryCas (forever : Bool)       -- sleepx.go:30, 46, 62
  | readCtx (forever : Bool)      -- sleepx.go:34, 50, 66
  | wait (c : Nat) (forever : Bool) -- sleepx.go:36-41, 52-57, 68-71: the select
  | release                       -- the deferred store
  | sleepRet (r : Bool)           -- Sleep* has returned `r`
  | load                          -- sleepx.go:76
  | callCancel                    -- sleepx.go:79: read `s.cancel` and call it
  | writeCtx                      -- sleepx.go:80: make a context, assign `s.ctx`
  | writeCancel (c : Nat)         -- sleepx.go:80: assign `s.cancel`
  | wakeRet (r : Bool)            -- Wakeup has returned `r`
  deriving DecidableEq

structure St where
  slept : Bool
  ctx : Nat
  cancel : Nat
  canceled : Nat → Bool
  next : Nat
  pc : Nat → Pc

/-- sleepx.go:20-27 `New`. -/
def init : St := ⟨false, 0, 0, fun _ => false, 1, fun _ => .idle⟩

def St.at (s : St) (g : Nat) (p : Pc) : St := { s with pc := fun h => if h = g then p else s.pc h }

/-- The goroutine is between calls. -/
def Pc.free : Pc → Bool
  | .idle | .sleepRet _ | .wakeRet _ => true
  | _ => false

/-- One step of goroutine `g`. `SleepFor` (sleepx.go:29-43) and `SleepUntil` (45-59) differ only in the
time at which the timer fires, which may be any; `SleepForever` (61-73) has no timer. Wakeup is
sleepx.go:75-82. -/
inductive Step (g : Nat) : St → St → Prop where
  | callSleep (s) (forever : Bool) : (s.pc g).free = true → Step g s (s.at g (.tryCas forever))
  | callWakeup (s) : (s.pc g).free = true → Step g s (s.at g .load)
  | casFail (s) (forever : Bool) : s.pc g = .tryCas forever → s.slept = true → Step g s (s.at g (.sleepRet false))
  | casOk (s) (forever : Bool) : s.pc g = .tryCas forever → s.slept = false →
      Step g s ({ s with slept := true }.at g (.readCtx forever))
  | readCtx (s) (forever : Bool) : s.pc g = .readCtx forever → Step g s (s.at g (.wait s.ctx forever))
  | timer (s) (c : Nat) : s.pc g = .wait c false → Step g s (s.at g .release)
  | done (s) (c : Nat) (forever : Bool) : s.pc g = .wait c forever → s.canceled c = true → Step g s (s.at g .release)
  | release (s) : s.pc g = .release → Step g s ({ s with slept := false }.at g (.sleepRet true))
  | loadNo (s) : s.pc g = .load → s.slept = false → Step g s (s.at g (.wakeRet false))
  | loadYes (s) : s.pc g = .load → s.slept = true → Step g s (s.at g .callCancel)
  | callCancel (s) : s.pc g = .callCancel →
      Step g s ({ s with canceled := fun c => if c = s.cancel then true else s.canceled c }.at g .writeCtx)
  | writeCtx (s) : s.pc g = .writeCtx →
      Step g s ({ s with ctx := s.next, next := s.next + 1 }.at g (.writeCancel s.next))
  | writeCancel (s) (c : Nat) : s.pc g = .writeCancel c → Step g s ({ s with cancel := c }.at g (.wakeRet true))

/-- The states executions reach. -/
inductive Reach : St → Prop where
  | init : Reach init
  | step {s s' : St} {g : Nat} : Reach s → Step g s s' → Reach s'

/-- The same where only goroutine `w` calls `Wakeup`. -/
inductive Reach1 (w : Nat) : St → Prop where
  | init : Reach1 w init
  | step {s s' : St} {g : Nat} : Reach1 w s → Step g s s' → (g ≠ w → s'.pc g ≠ .load) → Reach1 w s'

/-- Executions continuing one another, `Wakeup` being called by `w` only. -/
inductive Steps1 (w : Nat) : St → St → Prop where
  | refl (s) : Steps1 w s s
  | step {s s' s'' : St} {g : Nat} : Steps1 w s s' → Step g s' s'' → (g ≠ w → s''.pc g ≠ .load) → Steps1 w s s''

/-- sleepx.go:37: the duration given to `time.After` by `SleepFor(d)`, in nanoseconds. -/
def timerOf (d : Int) : Int := wrap64 (d * 1000000000)

end Verif.Sleep
