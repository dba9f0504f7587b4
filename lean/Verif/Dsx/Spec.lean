import Verif.Dsx.Model
/-!
# Programs that cannot tell the implementations of an interface apart
-/
namespace Verif.Dsx

variable {T : Type}

/-- The stack after a call, top first. -/
def stackAfter (l : List T) : SOp T → List T
  | .push v => v :: l
  | .pop => l.tail
  | _ => l

/-- Every `Pop` is made on an empty stack or on one whose two top elements are equal. -/
def PopsBlind (l : List T) : List (SOp T) → Prop
  | [] => True
  | op :: ops => (op = .pop → l = [] ∨ ∃ x l', l = x :: x :: l') ∧ PopsBlind (stackAfter l op) ops

/-- The queue after a call, front first. -/
def queueAfter (l : List T) : QOp T → List T
  | .enqueue v => l ++ [v]
  | .dequeue => l.tail
  | _ => l

/-- Every `Dequeue` is made on an empty queue or on one whose two front elements are equal. -/
def DequeuesBlind (l : List T) : List (QOp T) → Prop
  | [] => True
  | op :: ops => (op = .dequeue → l = [] ∨ ∃ x l', l = x :: x :: l') ∧ DequeuesBlind (queueAfter l op) ops

/-- The number of `Enqueue` calls. -/
def enqueues : List (QOp T) → Nat
  | [] => 0
  | .enqueue _ :: ops => enqueues ops + 1
  | _ :: ops => enqueues ops

/-- The sequence after a call, as far as the call is in the contract. -/
def listAfter (l : List T) : LOp T → List T
  | .append v => l ++ [v]
  | .insert i v => l.insertIdx i.toNat v
  | .remove i => l.eraseIdx i.toNat
  | _ => l

/-- Indices are in range, and nothing is appended once the end of the list was made by anything but
`Append` (`fresh`: it was not). -/
def Careful (fresh : Bool) (l : List T) : List (LOp T) → Prop
  | [] => True
  | .append v :: ops => fresh = true ∧ Careful fresh (listAfter l (.append v)) ops
  | .insert i v :: ops => (0 ≤ i ∧ i ≤ l.length) ∧
      Careful (fresh && decide (i < l.length)) (listAfter l (.insert i v)) ops
  | .remove i :: ops => (0 ≤ i ∧ i < l.length) ∧
      Careful (fresh && decide (i + 1 < l.length)) (listAfter l (.remove i)) ops
  | _ :: ops => Careful fresh l ops

end Verif.Dsx
