import Verif.Linked.Queue
import Verif.Linked.Stack
import Verif.Linked.List
import Verif.Linked.Deque
/-!
# Where the elements come from that a linked container hands out

An element is handed out by a call that returns it with `ok = true`, or gives it to the callback of `Iterate`.
-/
namespace Verif.LinkSrc
open Verif.Linked

variable {T : Type}

/-- The elements a call hands out. -/
def shows : Res T → List T
  | .val v => [v]
  | .vals l => l
  | _ => []

/-- The elements a history puts into a queue. -/
def queueIn : List (Queue.Op T) → List T
  | [] => []
  | .enqueue v _ :: ops => v :: queueIn ops
  | _ :: ops => queueIn ops

/-- The elements a history puts into a stack. -/
def stackIn : List (Stack.Op T) → List T
  | [] => []
  | .push v _ :: ops => v :: stackIn ops
  | _ :: ops => stackIn ops

/-- The elements a history puts into a list. -/
def listIn : List (LList.Op T) → List T
  | [] => []
  | .append v _ :: ops => v :: listIn ops
  | .insert _ v _ :: ops => v :: listIn ops
  | _ :: ops => listIn ops

/-- The elements a history puts into a deque. -/
def dequeIn : List (Deque.Op T) → List T
  | [] => []
  | .pushFront v _ :: ops => v :: dequeIn ops
  | .pushBack v _ :: ops => v :: dequeIn ops
  | _ :: ops => dequeIn ops

/-- Whatever call number `i` hands out was put in by the calls before it, or is in `extra`. -/
def Sourced {Op : Type} (given : List Op → List T) (ops : List Op) (results : List (Res T)) (extra : List T) : Prop :=
  ∀ i r, results[i]? = some r → ∀ v ∈ shows r, v ∈ given (ops.take i) ∨ v ∈ extra

end Verif.LinkSrc
