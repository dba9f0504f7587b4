import Verif.ConvServe.Model
import Verif.MapFair.Spec
/-!
# C177, the statement: a registry that is used and changed at the same time

Its state is the history of the registrations; what a call returns is said by the last one for its types (`Latest` of C62).
-/
namespace Verif.ConvServe
open Verif.Go Verif.Conc Verif.ConvReg

variable {U : Univ}

/-- What a conversion of `v` to `R` gives. -/
def Converts (h : List (Op U)) (v : U.Dyn) (R : CTy U) (x : Outcome (Value U × Bool)) : Prop :=
  (∃ f, Latest h (U.dyn v) R.1 (some f) ∧ x = .ret (f (some v), true)) ∨ (Latest h (U.dyn v) R.1 none ∧ x = .panic) ∨
  (NoLatest h (U.dyn v) R.1 ∧ x = .ret (some (U.zero R.1 R.2), false))

/-- Result and new history of each call. -/
def regStep (h : List (Op U)) (c : Call U) (r : Res U) (h' : List (Op U)) : Prop :=
  match c with
  | .register T R f => r = .unit ∧ h' = h ++ [.reg T.1 R.1 f]
  | .unregister T R => r = .unit ∧ h' = h ++ [.unreg T.1 R.1]
  | .found T R => (∃ b, r = .bool b ∧ (b = true ↔ ∃ f, Latest h T.1 R.1 f)) ∧ h' = h
  | .into v R => (∃ x, Converts h v R x ∧ r = .conv x) ∧ h' = h
  | .intoOr v R or => (∃ x, Converts h v R x ∧ r = .val (match x with
      | .ret (y, true) => .ret y
      | .ret (_, false) => .ret or
      | .panic => .panic
      | .hang => .hang)) ∧ h' = h

/-- The registry without concurrency. -/
def regObj (h0 : List (Op U)) : Obj (List (Op U)) (Call U) (Res U) := ⟨h0, regStep⟩

/-- In the history nobody takes away the converter from `T` to `R`, and all that are registered for the pair satisfy `P`. -/
structure Served (T R : CTy U) (P : (Value U → Value U) → Prop) (h : List (Event (Call U) (Res U))) : Prop where
  unregister : ∀ id, Event.inv id (.unregister T R) ∉ h
  register : ∀ id f, Event.inv id (.register T R f) ∈ h → ∃ g, f = some g ∧ P g

end Verif.ConvServe
