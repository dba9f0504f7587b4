import Verif.LinkSrc.Lemmas
/-!
# C132: the elements a linked container hands out were put into it
-/
set_option linter.unusedSectionVars false
namespace Verif.LinkSrc
open Verif.Linked

variable {T : Type} [Inhabited T]

/-- The full statement of C132, for all four containers. -/
def C132_full : Prop :=
  (∀ ops : List (Queue.Op Nat), Sourced queueIn ops (Queue.run Queue.new ops) []) ∧
  (∀ ops : List (Stack.Op Nat), Sourced stackIn ops (Stack.run Stack.new ops) []) ∧
  (∀ ops : List (LList.Op Nat), Sourced listIn ops (LList.run LList.new ops) []) ∧
  (∀ ops : List (Deque.Op Nat), Sourced dequeIn ops (Deque.run Deque.new ops) [])

/-- **C132 is false** of the deque: after `PushBack(7); PopBack()` the deque is empty, and `PopFront` gives 7 again and
then 63 zeros that nobody put in, all with `ok = true`. -/
theorem C132_refuted : ¬ C132_full ∧
    Deque.run (Deque.new : Deque.Deque Nat) ([.pushBack 7 none, .popBack] ++ List.replicate 65 .popFront) =
      [.unit, .val 7, .val 7] ++ List.replicate 63 (.val 0) ++ [.panic] := by
  refine ⟨fun h => ?_, by decide +kernel⟩
  have h1 := h.2.2.2 [.pushBack 7 none, .popBack, .popFront, .popFront] 3 (.val 0) (by decide +kernel) 0 (by simp [shows])
  revert h1
  decide

/-- **C132, what does hold**, for every history and every behaviour of the node pool: queue, stack and list hand out
only elements that were put into them before, though not always the right ones (C13, C14, C16); the deque hands out
only such elements or zero values. Missing from the full statement: the deque without the zero values. -/
theorem C132_partial :
    (∀ ops : List (Queue.Op T), Sourced queueIn ops (Queue.run Queue.new ops) []) ∧
    (∀ ops : List (Stack.Op T), Sourced stackIn ops (Stack.run Stack.new ops) []) ∧
    (∀ ops : List (LList.Op T), Sourced listIn ops (LList.run LList.new ops) []) ∧
    (∀ ops : List (Deque.Op T), Sourced dequeIn ops (Deque.run Deque.new ops) [default]) := by
  refine ⟨queue_run queue_new, fun ops => ?_, fun ops => ?_, deque_run (fun _ _ => List.mem_singleton.2 rfl) (by simp)⟩
  · rw [Stack.run_rep Stack.new_rep ops]
    exact stack_run [] [] (by simp) ops
  · rw [ListExact.C16_exact ops]
    exact list_run _ [] (by simp [ListExact.empty]) ops

/-- **C132, the loop that goes wrong.** A deque that was used properly with new nodes and whose last element `x` was
taken at one end is not found empty at the other: taking elements there until `ok` is false gives `x` again, up to 63
more cells of the node, and then only panics. -/
theorem C132_drain (ops : List (Deque.Op T)) (hf : ∀ op ∈ ops, DequeEnd.Fresh op) (h : DequeEnd.SafeEnds .both [] ops)
    (hb : DequeEnd.endsAfter .both [] ops = .both) (x : T) (hx : DequeEnd.specEnd [] ops = [x]) :
    (∃ vs : List T, vs.head? = some x ∧ vs.length ≤ 64 ∧ ∀ m,
      Deque.run Deque.new (ops ++ .popBack :: List.replicate m .popFront) =
        Deque.specRun [] ops ++ (.val x :: (vs.map .val).take m ++ List.replicate (m - vs.length) .panic)) ∧
    (∃ vs : List T, vs.head? = some x ∧ vs.length ≤ 64 ∧ ∀ m,
      Deque.run Deque.new (ops ++ .popFront :: List.replicate m .popBack) =
        Deque.specRun [] ops ++ (.val x :: (vs.map .val).take m ++ List.replicate (m - vs.length) .panic)) := by
  obtain ⟨e, r⟩ := DequeEnd.run_rep (T := T) DequeEnd.new_rep ops hf h
  rw [hb, hx] at r
  obtain ⟨⟨ns, r⟩, en⟩ := r
  obtain ⟨vs, h1, h2, h3⟩ := popBack_drain r en
  obtain ⟨ws, g1, g2, g3⟩ := popFront_drain r en
  exact ⟨⟨vs, h1, h2, fun m => by rw [DequeEnd.run_append, e, h3]⟩, ⟨ws, g1, g2, fun m => by rw [DequeEnd.run_append, e, g3]⟩⟩

/-- A queue with a recycled node that hands out an element for the third time: an element that was put in. -/
example : Queue.run (Queue.new : Queue.Queue Nat) [.enqueue 1 none, .enqueue 2 none, .dequeue, .enqueue 3 (some 0), .dequeue,
    .dequeue, .dequeue] = [.bool true, .bool true, .val 2, .bool true, .val 3, .val 2, .val 3] := by decide

/-- `Sourced` is not satisfied by a container that makes elements up, or hands them out too early. -/
example : ¬ Sourced queueIn [.peek] [.val 1] [] ∧ ¬ Sourced queueIn [.peek, .enqueue 1 none] [.val 1, .bool true] [] ∧
    Sourced queueIn [.enqueue 1 none, .peek] [.bool true, .val 1] [] := by
  refine ⟨fun h => ?_, fun h => ?_, fun i r hr v hv => ?_⟩
  · have := h 0 _ rfl 1 (by simp [shows])
    simp [queueIn] at this
  · have := h 0 _ rfl 1 (by simp [shows])
    simp [queueIn] at this
  · rcases i with _ | _ | i
    · obtain rfl : Res.bool true = r := by simpa using hr
      simp [shows] at hv
    · obtain rfl : Res.val 1 = r := by simpa using hr
      simpa [shows, queueIn] using hv
    · simp at hr

/-- The hypotheses of `C132_drain` hold of a history that changes ends. -/
example : ∃ ops : List (Deque.Op Nat), (∀ op ∈ ops, DequeEnd.Fresh op) ∧ DequeEnd.SafeEnds .both [] ops ∧
    DequeEnd.endsAfter .both [] ops = .both ∧ DequeEnd.specEnd [] ops = [3] :=
  ⟨[.pushBack 1 none, .pushFront 2 none, .pushBack 3 none, .popFront, .popFront], by
    simp [DequeEnd.Fresh, DequeEnd.SafeEnds, DequeEnd.endsAfter, DequeEnd.specEnd, DequeEnd.Ends.after, Deque.specStep,
      DequeEnd.atFront]⟩

end Verif.LinkSrc
