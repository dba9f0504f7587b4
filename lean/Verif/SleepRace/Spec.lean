import Verif.Sleep.Model
/-!
# Data races in `timex/sleepx/sleepx.go`

The field `slept` is atomic, `ctx` and `cancel` are plain. Two goroutines race when both are about to use the
same field and one of them writes it; there is no lock.
-/
namespace Verif.SleepRace
open Verif.Sleep

/-- The fields that are not atomic, sleepx.go:13-14. -/
inductive Field where
  | ctx
  | cancel
  deriving DecidableEq

/-- `Uses p v write`: a goroutine at `p` is about to use `v`. -/
inductive Uses : Pc → Field → Bool → Prop where
  /-- sleepx.go:34, 50, 66 -/
  | readCtx (f) : Uses (.readCtx f) .ctx false
  /-- sleepx.go:79 -/
  | callCancel : Uses .callCancel .cancel false
  /-- sleepx.go:80 -/
  | writeCtx : Uses .writeCtx .ctx true
  /-- sleepx.go:80 -/
  | writeCancel (c) : Uses (.writeCancel c) .cancel true

/-- A race between goroutines `g` and `h` on `v`. -/
def Race (s : St) (g h : Nat) (v : Field) : Prop :=
  g ≠ h ∧ ∃ a b, Uses (s.pc g) v a ∧ Uses (s.pc h) v b ∧ (a = true ∨ b = true)

/-- A call of `Sleep...` that has not yet got hold of the context. -/
def entering : Pc → Prop
  | .tryCas _ | .readCtx _ => True
  | _ => False

/-- Inside a call of `Wakeup`, sleepx.go:77-81. -/
def inWakeup : Pc → Prop
  | .load | .callCancel | .writeCtx | .writeCancel _ => True
  | _ => False

/-- Executions where only `w` calls `Wakeup`, no call of `Wakeup` starts while a call of `Sleep...` is still
entering, and no call of `Sleep...` starts while one of `Wakeup` is under way. -/
inductive Polite (w : Nat) : St → Prop where
  | init : Polite w init
  | step {s s' : St} {g : Nat} : Polite w s → Step g s s' →
      (s'.pc g = .load → g = w ∧ ∀ h, ¬ entering (s.pc h)) →
      (∀ f, s'.pc g = .tryCas f → ¬ inWakeup (s.pc w)) → Polite w s'

end Verif.SleepRace
