import Verif.Decouple.Model
/-!
# Model of `iox/decouplex/decouple.go` when `view` panics

The steps are those of `Verif.Decouple`, and one more: `view` panics (decouple.go:94) and the caller of `Next`
recovers. Lines 96-98 are then not executed. The view does not write to the slice it is shown. A drop function
that panics (lines 50 and 70) leaves the decoupler as one that returns does.
-/
namespace Verif.DecPanic
open Verif.Decouple

variable {α : Type}

/-- The decoupler, and (observed only) what was shown to views that panicked. `st.log` is what was shown to
views that returned. -/
structure PSt (α : Type) where
  st : St α
  failed : List (List α)

/-- decouple.go:93-95: `view` panics; `Next` ends there. -/
def PSt.panic (p : PSt α) (i : Nat) : PSt α := ⟨{ p.st with rpc := .idle }, p.failed ++ [p.st.buf i]⟩

inductive PStep (size : Nat) (payload : Nat → List α) : PSt α → PSt α → Prop where
  | normal (p s') : Step size payload p.st s' → PStep size payload p ⟨s', p.failed⟩
  | viewPanic (p i) : p.st.rpc = .view i → PStep size payload p (p.panic i)

inductive PReach (size : Nat) (payload : Nat → List α) : PSt α → Prop where
  | init : PReach size payload ⟨init, []⟩
  | step {p p' : PSt α} : PReach size payload p → PStep size payload p p' → PReach size payload p'

/-- `q` is reached from `p`. -/
inductive PSteps (size : Nat) (payload : Nat → List α) (p : PSt α) : PSt α → Prop where
  | refl : PSteps size payload p p
  | step {q q' : PSt α} : PSteps size payload p q → PStep size payload q q' → PSteps size payload p q'

end Verif.DecPanic
