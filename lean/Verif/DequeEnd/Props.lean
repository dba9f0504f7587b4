import Verif.DequeEnd.Lemmas
/-!
# C15 without recycled nodes, and C100: the deque used at one end
-/
set_option linter.unusedSectionVars false
namespace Verif.DequeEnd
open Verif.Linked Verif.Linked.Deque

variable {T : Type} [Inhabited T]

/-- **C15 without recycled nodes.** A deque may be emptied and filled again; every history behaves as on an abstract
double-ended sequence as long as, from the moment a pop takes the last element to the next push, only that end is
used. Missing from the full claim: recycled nodes and the other end. -/
theorem C15_fresh_partial (ops : List (Op T)) (hf : ∀ op ∈ ops, Fresh op) (h : SafeEnds .both [] ops) :
    run (new : Deque T) ops = specRun [] ops := (run_rep new_rep ops hf h).1

/-- The condition is needed: as soon as a pop takes the last element, both calls that read at the other end deliver
that element a second time. -/
theorem C15_other_end (ops : List (Op T)) (hf : ∀ op ∈ ops, Fresh op) (h : SafeEnds .both [] ops)
    (hb : endsAfter .both [] ops = .both) (x : T) (hx : specEnd [] ops = [x]) :
    run new (ops ++ [.popFront, .peekBack]) = specRun [] ops ++ [.val x, .val x] ∧
    run new (ops ++ [.popFront, .popBack]) = specRun [] ops ++ [.val x, .val x] ∧
    run new (ops ++ [.popBack, .peekFront]) = specRun [] ops ++ [.val x, .val x] ∧
    run new (ops ++ [.popBack, .popFront]) = specRun [] ops ++ [.val x, .val x] := by
  obtain ⟨e, r⟩ := run_rep (T := T) new_rep ops hf h
  rw [hb, hx] at r
  obtain ⟨⟨ns, r⟩, en⟩ := r
  have h1 := popFront_last r en
  have h2 := popBack_last r en
  refine ⟨?_, ?_, ?_, ?_⟩ <;> rw [run_append, e] <;> congr 1
  · simp [run, step, h1.1, h1.2.2.2.1]
  · simp [run, step, h1.1, h1.2.2.2.2.1]
  · simp [run, step, h2.1, h2.2.2.2.1]
  · simp [run, step, h2.1, h2.2.2.2.2.1]

/-- A push at the other end is lost to this one: after `PopFront` took the last element, an element given to
`PushBack` does not come out of `PopFront`, whatever node the pool hands out; likewise with the ends exchanged. -/
theorem C15_other_end_push (ops : List (Op T)) (hf : ∀ op ∈ ops, Fresh op) (h : SafeEnds .both [] ops)
    (hb : endsAfter .both [] ops = .both) (x y : T) (c : Option Nat) (hx : specEnd [] ops = [x]) :
    run new (ops ++ [.popFront, .pushBack y c, .popFront]) = specRun [] ops ++ [.val x, .unit, .none] ∧
    run new (ops ++ [.popBack, .pushFront y c, .popBack]) = specRun [] ops ++ [.val x, .unit, .none] := by
  obtain ⟨e, r⟩ := run_rep (T := T) new_rep ops hf h
  rw [hb, hx] at r
  obtain ⟨⟨ns, r⟩, en⟩ := r
  have h1 := popFront_last r en
  have h2 := popBack_last r en
  have h1' := h1.2.2.2.2.2 y c
  have h2' := h2.2.2.2.2.2 y c
  refine ⟨?_, ?_⟩ <;> rw [run_append, e] <;> congr 1
  · simp only [run, step, h1.1, h1'.1]
    rw [popFront, h1'.2]
  · simp only [run, step, h2.1, h2'.1]
    rw [popBack, h2'.2]

/-- Its hypotheses hold of a history that changes ends, empties the deque and fills it again. -/
example : ∃ ops : List (Op Nat), (∀ op ∈ ops, Fresh op) ∧ SafeEnds .both [] ops ∧ endsAfter .both [] ops = .both ∧
    specEnd [] ops = [3] :=
  ⟨[.pushBack 1 none, .popFront, .popFront, .pushFront 2 none, .pushBack 3 none, .popFront], by
    simp [Fresh, SafeEnds, endsAfter, specEnd, Ends.after, specStep, atFront]⟩

/-- Calls at the front only. -/
theorem safe_front (ops : List (Op T)) (h : ∀ op ∈ ops, atFront op) : ∀ (e : Ends) (l : List T), e ≠ .back →
    SafeEnds e l ops := by
  induction ops with
  | nil => intros; trivial
  | cons op ops ih =>
    intro e l he
    have hop := h op (by simp)
    refine ⟨fun _ => hop, fun hb => absurd hb he, ih (fun o ho => h o (by simp [ho])) _ _ ?_⟩
    cases op <;> simp only [Ends.after] <;> first | exact hop.elim | (repeat' split) <;> simp_all

/-- Calls at the back only. -/
theorem safe_back (ops : List (Op T)) (h : ∀ op ∈ ops, ¬ atFront op) : ∀ (e : Ends) (l : List T), e ≠ .front →
    SafeEnds e l ops := by
  induction ops with
  | nil => intros; trivial
  | cons op ops ih =>
    intro e l he
    have hop := h op (by simp)
    refine ⟨fun hb => absurd hb he, fun _ => hop, ih (fun o ho => h o (by simp [ho])) _ _ ?_⟩
    cases op <;> simp only [Ends.after] <;> first | exact absurd trivial hop | (repeat' split) <;> simp_all

/-- The full statement of C100: used at one end only, the deque is a stack. -/
def C100_full : Prop := ∀ ops : List (Op Nat), (∀ op ∈ ops, atFront op) ∨ (∀ op ∈ ops, ¬ atFront op) →
  run (new : Deque Nat) ops = specRun [] ops

/-- **C100, what does hold**: it is, for every history, when the pool hands out new nodes. Missing from the full
statement: recycled nodes. -/
theorem C100_partial (ops : List (Op T)) (hf : ∀ op ∈ ops, Fresh op)
    (h : (∀ op ∈ ops, atFront op) ∨ (∀ op ∈ ops, ¬ atFront op)) : run (new : Deque T) ops = specRun [] ops := by
  refine C15_fresh_partial ops hf ?_
  rcases h with h | h
  · exact safe_front ops h _ _ (by simp)
  · exact safe_back ops h _ _ (by simp)

/-- False with recycled nodes, whose links are not reset. `PushFront(1); PushFront(2); PopFront(); PopFront();
PushFront(3)` with the first node given back, `PopFront(); PopFront()`: the last call returns `(0, true)` from an
empty deque. -/
theorem C100_refuted : ¬ C100_full ∧
    run (new : Deque Nat) [.pushFront 1 none, .pushFront 2 none, .popFront, .popFront, .pushFront 3 (some 1), .popFront,
      .popFront] = [.unit, .unit, .val 2, .val 1, .unit, .val 3, .val 0] := by
  have h : run (new : Deque Nat) [.pushFront 1 none, .pushFront 2 none, .popFront, .popFront, .pushFront 3 (some 1),
      .popFront, .popFront] = [.unit, .unit, .val 2, .val 1, .unit, .val 3, .val 0] := by decide
  refine ⟨fun hf => ?_, h⟩
  have := hf [.pushFront 1 none, .pushFront 2 none, .popFront, .popFront, .pushFront 3 (some 1), .popFront, .popFront]
    (.inl (by simp [atFront]))
  rw [h] at this
  exact absurd this (by decide)

/-- At the back it takes more than 64 elements. -/
example : run (new : Deque Nat) (List.replicate 65 (.pushBack 7 none) ++ List.replicate 65 .popBack ++
    [.pushBack 3 (some 1), .popBack, .popBack]) =
    List.replicate 65 .unit ++ List.replicate 65 (.val 7) ++ [.unit, .val 3, .panic] := by decide +kernel

/-- A history that empties the deque twice and changes ends. -/
example : SafeEnds .both [] ([.pushBack 1 none, .popFront, .popFront, .pushFront 2 none, .pushBack 3 none, .popBack,
    .popBack, .peekBack, .pushBack 4 none, .peekFront] : List (Op Nat)) := by
  simp [SafeEnds, Ends.after, specStep, atFront]

end Verif.DequeEnd
