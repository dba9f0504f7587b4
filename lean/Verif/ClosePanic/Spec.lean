import Verif.ClosePanic.Model
/-!
# What users of close managers rely on when closers panic
-/
namespace Verif.ClosePanic

variable {W E P : Type}

/-- The world after calling some closers one after the other, whatever they do. -/
def worldAfter : List (Closer W P E) → W → W
  | [], w => w
  | c :: cs, w => worldAfter cs (c w).2

/-- The errors they return, in order. -/
def errorsOf : List (Closer W P E) → W → List E
  | [], _ => []
  | c :: cs, w =>
    match (c w).1 with
    | .ok (some e) => e :: errorsOf cs (c w).2
    | _ => errorsOf cs (c w).2

/-- Called one after the other, none of them panics. -/
def NonePanics : List (Closer W P E) → W → Prop
  | [], _ => True
  | c :: cs, w => (∃ r, (c w).1 = .ok r) ∧ NonePanics cs (c w).2

/-- The closers appended by a history. -/
def appended : List (Op W P E) → List (Closer W P E)
  | [] => []
  | .append c :: ops => c :: appended ops
  | .close :: ops => appended ops

/-- A closer that notes its number, and panics or returns. -/
def noting (n : Nat) (r : Except P (Option E)) : Closer (List Nat) P E := fun log => (r, log ++ [n])

/-- Closers with the given results, numbered from `n`. -/
def numbered : Nat → List (Except P (Option E)) → List (Closer (List Nat) P E)
  | _, [] => []
  | n, r :: rs => noting n r :: numbered (n + 1) rs

end Verif.ClosePanic
