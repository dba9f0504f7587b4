import Verif.Linked.Stack
import Verif.Linked.Queue
import Verif.Linked.Deque
import Verif.Linked.List
/-!
# Properties C13-C16: the linked containers
-/
set_option linter.unusedSectionVars false

namespace Verif.Linked.Queue
open Verif.Linked
variable {T : Type} [Inhabited T]

/-- **C13 is false**: `Enqueue(1); Enqueue(2); Dequeue()` returns 2 instead of 1; `Enqueue(1);
Dequeue()` panics; and after recycling a node, `Dequeue` on a one-element queue hands out an element
that had left the queue and the queue never becomes empty. -/
theorem C13_refuted :
    run (new : Queue Nat) [.enqueue 1 none, .enqueue 2 none, .dequeue] = [.bool true, .bool true, .val 2] ∧
    specRun [] [.enqueue 1 none, .enqueue 2 none, .dequeue] = [.bool true, .bool true, .val 1] ∧
    run (new : Queue Nat) [.enqueue 1 none, .dequeue] = [.bool true, .panic] ∧
    run (new : Queue Nat) [.enqueue 1 none, .enqueue 2 none, .dequeue, .enqueue 3 (some 0), .dequeue, .dequeue, .dequeue, .dequeue] =
      [.bool true, .bool true, .val 2, .bool true, .val 3, .val 2, .val 3, .val 2] := by
  refine ⟨?_, ?_, ?_, ?_⟩ <;> decide

/-- **C13, what does hold**, for every behaviour of the node pool and every history in which no
`Dequeue` is made on a one-element queue: elements leave the queue in FIFO order, `Peek` and
`IsEmpty` are right and nothing panics; but `Dequeue` reports the element behind the one it removes.
Missing from the full claim: `Dequeue`'s result, and one-element queues. -/
theorem C13_partial (ops : List (Op T)) (h : KeepsOne [] ops) : run (new : Queue T) ops = shownRun [] ops :=
  run_rep new_rep ops h

/-- `shownRun` differs from the FIFO specification only in what `Dequeue` reports. -/
theorem C13_other_calls (l : List T) (op : Op T) (h : op ≠ .dequeue) : shownStep l op = (specStep l op).2 := by
  cases op <;> first | rfl | exact absurd rfl h

/-- Without recycling, the exact behaviour for every history: as above, and `Dequeue` of the last element panics
after taking it; the queue is then empty and usable. -/
theorem C13_fresh_partial (ops : List (Op T)) (h : ∀ op ∈ ops, op.fresh) : run (new : Queue T) ops = exactRun [] ops :=
  run_fresh new_rep (by simp) ops h

/-- Hence, without recycling, everything but the results of `Dequeue` is right in every history. -/
theorem C13_fresh_other_calls (l : List T) (op : Op T) (h : op = .dequeue → l = []) :
    exactStep l op = (specStep l op).2 := by
  cases op with
  | dequeue => rw [h rfl]; rfl
  | enqueue v c => rfl
  | peek => rfl
  | isEmpty => rfl

example : exactRun [] [.enqueue 1 none, .dequeue, .isEmpty, .enqueue 2 none, .enqueue 3 none, .dequeue, .peek] =
    [.bool true, .panic, .bool true, .bool true, .bool true, .val 3, .val (3 : Nat)] := by decide

example : KeepsOne [] ([.enqueue 1 none, .enqueue 2 none, .dequeue, .enqueue 3 (some 0), .peek, .dequeue, .isEmpty] : List (Op Nat)) := by
  simp [KeepsOne, specStep]

end Verif.Linked.Queue

namespace Verif.Linked.Stack
open Verif.Linked
variable {T : Type} [Inhabited T]

/-- **C14 is false**: a pushed element does not come back. `Push(1); Push(2); Pop()` returns 1, and
`Push(1); Pop()` panics. -/
theorem C14_refuted :
    run (new : Stack Nat) [.push 1 none, .push 2 none, .pop] ≠
      specRun [] [.push 1 none, .push 2 none, .pop] ∧
    run (new : Stack Nat) [.push 1 none, .pop] = [.bool true, .panic] := by
  constructor <;> decide

/-- **C14, what does hold**, for every history and every behaviour of the node pool: the sequence of
elements, `Peek` and `Len` are those of a stack; only the value `Pop` reports is that of the element
below the removed one, with a panic when the removed element was the last (the stack is then empty
and usable). Missing from the full claim: `Pop`'s result. -/
theorem C14_partial (ops : List (Op T)) : run (new : Stack T) ops = shownRun [] ops :=
  run_rep new_rep ops

/-- Hence without `Pop`-results the stack is right: histories agree with the specification at every
call that is not a `Pop` on a non-empty stack. -/
theorem C14_other_calls (l : List T) (op : Op T) (h : op = .pop → l = []) : shownStep l op = (specStep l op).2 := by
  cases op with
  | pop => rw [h rfl]; rfl
  | push v c => rfl
  | peek => rfl
  | len => rfl

example : run (new : Stack Nat) [.push 1 none, .push 2 none, .pop, .push 3 (some 0), .peek, .len] =
    [.bool true, .bool true, .val 1, .bool true, .val 3, .num 2] := by decide

end Verif.Linked.Stack

namespace Verif.Linked.Deque
open Verif.Linked
variable {T : Type} [Inhabited T]

/-- **C15 is false**: once a pop takes the last element, the other end keeps pointing to the recycled
node. `PushBack(1); PopFront(); PushBack(2); PopFront()` reports an empty deque, and `PushBack(1);
PopFront(); PeekBack()` still shows the element that was removed. -/
theorem C15_refuted :
    run (new : Deque Nat) [.pushBack 1 none, .popFront, .pushBack 2 none, .popFront] =
      [.unit, .val 1, .unit, .none] ∧
    specRun [] [.pushBack 1 none, .popFront, .pushBack 2 none, .popFront] = [.unit, .val 1, .unit, .val 2] ∧
    run (new : Deque Nat) [.pushBack 1 none, .popFront, .peekBack] = [.unit, .val 1, .val 1] := by
  refine ⟨?_, ?_, ?_⟩ <;> decide

/-- **C15, what does hold**: every history in which no pop takes the last remaining element behaves
as on an abstract double-ended sequence, at every node boundary and for every behaviour of the node
pool. Missing from the full claim: histories that empty the deque after using it. -/
theorem C15_partial (ops : List (Op T)) (h : KeepsOne [] ops) : run (new : Deque T) ops = specRun [] ops :=
  run_rep new_rep ops h

/-- A history of that kind that crosses node boundaries and recycles nodes. -/
example : KeepsOne [] (.pushBack 0 none :: List.replicate 70 (.pushFront 1 (some 0)) ++
    (List.replicate 70 .popBack ++ [.pushBack 9 (some 0), .popFront, .peekBack]) : List (Op Nat)) := by
  simp [List.replicate, KeepsOne, specStep, List.dropLast]

end Verif.Linked.Deque

namespace Verif.Linked.LList
open Verif.Linked
variable {T : Type} [Inhabited T]

/-- **C16 is false**, in four ways:
`Insert(0,1); Append(2)` loses 1 (the tail was never set);
`Append(1); Insert(1,2); Append(3)` loses 2 (the tail was not moved);
`Append(1); Append(2); Remove(1); Append(3)` loses 3 (the tail is the removed node);
`Remove(5)` on the empty list makes `Len` −1. -/
theorem C16_refuted :
    run (new : LL Nat) [.insert 0 1 none, .append 2 none, .at 0] = [.unit, .unit, .val 2] ∧
    run (new : LL Nat) [.append 1 none, .insert 1 2 none, .append 3 none, .at 1, .at 2] =
      [.unit, .unit, .unit, .val 3, .none] ∧
    run (new : LL Nat) [.append 1 none, .append 2 none, .remove 1, .append 3 none, .at 1, .len] =
      [.unit, .unit, .val 2, .unit, .none, .num 2] ∧
    run (new : LL Nat) [.remove 5, .len] = [.none, .num (-1)] ∧
    specRun [] [.insert 0 1 none, .append 2 none, .at 0] = [.unit, .unit, .val 1] ∧
    specRun [] [.append 1 none, .insert 1 2 none, .append 3 none, .at 1, .at 2] =
      [.unit, .unit, .unit, .val 2, .val 3] ∧
    specRun [] [.append 1 none, .append 2 none, .remove 1, .append 3 none, .at 1, .len] =
      [.unit, .unit, .val 2, .unit, .val 3, .num 2] ∧
    specRun ([] : List Nat) [.remove 5, .len] = [.none, .num 0] := by
  refine ⟨?_, ?_, ?_, ?_, ?_, ?_, ?_, ?_⟩ <;> decide

/-- **C16, what does hold**, for every behaviour of the node pool: histories whose `Insert` indices
are in `0..Len`, whose `Remove` indices are in `0..Len-1`, and which do not `Append` once an `Insert`
at the end or a `Remove` of the last element was made, behave as on an abstract sequence. `At`,
`Iterate` and `Len` are unrestricted. Missing from the full claim: `Append` after the end was
changed by `Insert`/`Remove`, and `Remove` out of range. -/
theorem C16_partial (ops : List (Op T)) (h : Safe true [] ops) : run (new : LL T) ops = specRun [] ops :=
  run_rep new_rep ops h

example : Safe true [] ([.append 1 none, .append 2 none, .insert 1 7 none, .remove 0, .append 3 (some 0), .at (-1),
    .remove 2, .insert 2 5 (some 0), .len, .iterate (fun l => decide (l.length < 2))] : List (Op Nat)) := by
  simp [Safe, SafeOp, specStep, stays]

end Verif.Linked.LList
