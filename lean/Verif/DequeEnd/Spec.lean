import Verif.Linked.Deque
/-!
# Which histories of a deque stay on the right end

After a pop takes the last element, only the end it was taken from knows that the deque is empty. The other end may
be used again after the next push at the right one.
-/
namespace Verif.DequeEnd
open Verif.Linked Verif.Linked.Deque

variable {T : Type}

/-- Which ends know what the deque holds. -/
inductive Ends where
  | both
  | front
  | back
  deriving DecidableEq

/-- The end a call works at. -/
def atFront : Op T → Prop
  | .pushFront _ _ | .popFront | .peekFront => True
  | _ => False

/-- The ends that know, after a call on a deque with the elements `l`. -/
def Ends.after (e : Ends) (l : List T) : Op T → Ends
  | .pushFront _ _ | .pushBack _ _ => .both
  | .popFront => if l.length = 1 then .front else e
  | .popBack => if l.length = 1 then .back else e
  | _ => e

/-- Every call of the history works at an end that knows what the deque holds. -/
def SafeEnds (e : Ends) (l : List T) : List (Op T) → Prop
  | [] => True
  | op :: ops => (e = .front → atFront op) ∧ (e = .back → ¬ atFront op) ∧
      SafeEnds (e.after l op) (specStep l op).1 ops

/-- The pool hands out a new node, as it may always do. -/
def Fresh : Op T → Prop
  | .pushFront _ c | .pushBack _ c => c = none
  | _ => True

/-- The elements after a history. -/
def specEnd (l : List T) : List (Op T) → List T
  | [] => l
  | op :: ops => specEnd (specStep l op).1 ops

/-- The ends that know after a history. -/
def endsAfter (e : Ends) (l : List T) : List (Op T) → Ends
  | [] => e
  | op :: ops => endsAfter (e.after l op) (specStep l op).1 ops

end Verif.DequeEnd
