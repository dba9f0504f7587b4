import Verif.PoolUse.Model
/-!
# The rules of the package, and what they are good for
-/
namespace Verif.PoolUse

variable {T : Type}

/-- Who holds the object `a` after an event, if `o` held it before. -/
def hold (a : Nat) (o : Option Nat) : Ev T → Option Nat
  | .take g (some b) => if b = a then some g else o
  | .made g b _ => if b = a then some g else o
  | .own g b _ => if b = a then some g else o
  | .put _ (some b) => if b = a then none else o
  | _ => o

/-- Who holds the object `a` after what happened: who got or made it last, unless it was put since. -/
def holder (a : Nat) (h : List (Ev T)) : Option Nat := h.foldl (hold a) none

/-- The event is allowed after `h` by the rules (syncpoolx.go:29-31): an object is put, written and read by the goroutine that
holds it only; nil is not put. -/
def Allowed (h : List (Ev T)) : Ev T → Prop
  | .put g (some a) => holder a h = some g
  | .put _ none => False
  | .write g a _ => holder a h = some g
  | .read g a _ => holder a h = some g
  | _ => True

/-- Every event was allowed. -/
def KeepsRules (h : List (Ev T)) : Prop := ∀ p e q, h = p ++ e :: q → Allowed p e

/-- The event sets the content of `a` to `v`. -/
def Sets (a : Nat) (v : T) : Ev T → Prop
  | .made _ b w => b = a ∧ w = v
  | .own _ b w => b = a ∧ w = v
  | .write _ b w => b = a ∧ w = v
  | _ => False

/-- The last thing that set the content of `a` set it to `v`. -/
def LastSet (a : Nat) (v : T) (h : List (Ev T)) : Prop :=
  ∃ p e q, h = p ++ e :: q ∧ Sets a v e ∧ ∀ e' ∈ q, ∀ w, ¬ Sets a w e'

/-- The goroutine `g` reads or writes. -/
def By (g : Nat) : Ev T → Prop
  | .write g' _ _ => g' = g
  | .read g' _ _ => g' = g
  | _ => False

/-- The event has to do with the object `a`. -/
def About (a : Nat) : Ev T → Prop
  | .take _ p => p = some a
  | .made _ b _ => b = a
  | .put _ p => p = some a
  | .own _ b _ => b = a
  | .write _ b _ => b = a
  | .read _ b _ => b = a
  | _ => False

/-- The event gives the object to `g`. -/
def Gives (g a : Nat) : Ev T → Prop
  | .take g' p => g' = g ∧ p = some a
  | .made g' b _ => g' = g ∧ b = a
  | .own g' b _ => g' = g ∧ b = a
  | _ => False

end Verif.PoolUse
