import Verif.Decouple.Model
/-!
# A call of `Write` that goes on while everybody else stands still

The transition system is that of `Verif.Decouple.Model`, decouple.go:48-101.
-/
namespace Verif.DecAlone
open Verif.Decouple
variable {α : Type}

/-- Call `j` takes a step: it is the only one whose steps move it. -/
def Own (size : Nat) (payload : Nat → List α) (j : Nat) (s t : St α) : Prop := Step size payload s t ∧ t.wpc j ≠ s.wpc j

/-- Steps of call `j` only. -/
inductive Alone (size : Nat) (payload : Nat → List α) (j : Nat) : St α → St α → Prop where
  | refl (s) : Alone size payload j s s
  | head {s t u} : Own size payload j s t → Alone size payload j t u → Alone size payload j s u

/-- The call has returned, its payload accepted or dropped. -/
def Over (s : St α) (j : Nat) : Prop := s.wpc j = .accepted ∨ s.wpc j = .dropped

/-- On its own the call comes to its end, with at most `n` more tickets. -/
def Returns (size : Nat) (payload : Nat → List α) (j n : Nat) (s : St α) : Prop :=
  ∃ t, Alone size payload j s t ∧ Over t j ∧ t.attempts ≤ s.attempts + n

/-- Some slot is empty, or some slot is full and the fill counter says that all are. -/
def Open (size : Nat) (s : St α) : Prop :=
  (∃ i, i < size ∧ s.lock i = emptyL) ∨ s.len = size ∧ ∃ i, i < size ∧ s.lock i ≠ emptyL ∧ s.lock i ≠ busyL

/-- The other calls of `Write` have not begun, or have returned. -/
def OthersOut (s : St α) (j : Nat) : Prop := ∀ k, k ≠ j → s.wpc k = .new ∨ s.wpc k = .accepted ∨ s.wpc k = .dropped

end Verif.DecAlone
