import Verif.Dsx.Lemmas
/-!
# Property C119: the implementations of an interface are interchangeable
-/
namespace Verif.Dsx
open Verif.Linked

variable {T : Type} [Inhabited T]

/-- **C119 (full statement).** A program over `Stack` or `List` sees the same results with both
implementations; a program over `Queue` sees the same results with the linked queue as with a ring
that has room for all its elements. -/
def C119_full : Prop :=
  (∀ (T : Type) [Inhabited T] (h : Go.Hp T) (ops : List (SOp T × Rt)), stackLinked ops = stackSlice h ops) ∧
  (∀ (T : Type) [Inhabited T] (n : Int) (r : Ring.Ring T), n < 2 ^ 63 - 1 → Ring.new n = .ret (some r) →
    ∀ ops : List (QOp T × Rt), (enqueues (ops.map Prod.fst) : Int) ≤ n → queueLinked ops = queueRing r ops) ∧
  (∀ (T : Type) [Inhabited T] (h : Go.Hp T) (ops : List (LOp T × Rt)), listLinked ops = listSlice h ops)

/-! ## Stack -/

/-- **C119 for `Stack`, exactly.** Whatever the pool and the memory do, a program sees the same with the
two stacks if and only if each of its `Pop` calls is made on an empty stack or on two equal elements. -/
theorem C119_stack_iff (h : Go.Hp T) (ops : List (SOp T × Rt)) :
    stackLinked ops = stackSlice h ops ↔ PopsBlind [] (ops.map Prod.fst) := by
  unfold stackLinked stackSlice
  rw [Stack.C14_partial, SliceC.C18_slice_stack]
  exact stack_from ops []

/-! ## Queue -/

/-- **C119 for `Queue`, as far as it goes.** With a ring of capacity `n`, whatever the pool does: a
program that makes at most `n` `Enqueue` calls and each `Dequeue` on an empty queue or on two equal
elements sees the same with both. -/
theorem C119_queue_partial (n : Int) (h0 : 0 < n) (h1 : n < 2 ^ 63 - 1) :
    ∃ r : Ring.Ring T, Ring.new n = .ret (some r) ∧ ∀ ops : List (QOp T × Rt),
      (enqueues (ops.map Prod.fst) : Int) ≤ n → DequeuesBlind [] (ops.map Prod.fst) →
      queueLinked ops = queueRing r ops := by
  obtain ⟨r, hr, e⟩ := Ring.C17_exact (T := T) n h0 h1
  refine ⟨r, hr, fun ops h2 h3 => ?_⟩
  have hk := keeps_of_blind ops [] h3
  unfold queueLinked queueRing
  rw [e, Queue.C13_partial _ hk, shown_eq_exact _ _ hk]
  exact (queue_from n.toNat ops 0 [] (by omega) (by simp)).2 ⟨by omega, h3⟩

/-- Without recycling this is exact. -/
theorem C119_queue_iff (n : Int) (h0 : 0 < n) (h1 : n < 2 ^ 63 - 1) :
    ∃ r : Ring.Ring T, Ring.new n = .ret (some r) ∧ ∀ ops : List (QOp T × Rt), (∀ o ∈ ops, o.2.node = none) →
      (queueLinked ops = queueRing r ops ↔
        (enqueues (ops.map Prod.fst) : Int) ≤ n ∧ DequeuesBlind [] (ops.map Prod.fst)) := by
  obtain ⟨r, hr, e⟩ := Ring.C17_exact (T := T) n h0 h1
  refine ⟨r, hr, fun ops hf => ?_⟩
  unfold queueLinked queueRing
  have hfr : ∀ op ∈ ops.map (fun o => o.1.linked o.2), op.fresh := by
    intro op hop
    obtain ⟨o, ho, rfl⟩ := List.mem_map.1 hop
    have := hf o ho
    obtain ⟨op, r⟩ := o
    cases op <;> first | exact this | trivial
  rw [e, Queue.C13_fresh_partial _ hfr, queue_from n.toNat ops 0 [] (by omega) (by simp)]
  constructor
  · rintro ⟨h2, h3⟩; exact ⟨by omega, h3⟩
  · rintro ⟨h2, h3⟩; exact ⟨by omega, h3⟩

/-! ## List -/

/-- The indices of a call are `int`s. -/
def IndexOk : LOp T → Prop
  | .insert i _ => Go.InInt64 i
  | .remove i => Go.InInt64 i
  | .at i => Go.InInt64 i
  | _ => True

/-- **C119 for `List`, as far as it goes.** A careful program (indices in range for `Insert` and
`Remove`, no `Append` once the end was changed by something else) sees the same with both lists. -/
theorem C119_list_partial (h : Go.Hp T) (ops : List (LOp T × Rt)) (hi : ∀ o ∈ ops, IndexOk o.1)
    (hs : (ops.length : Int) < 2 ^ 63) (hc : Careful true [] (ops.map Prod.fst)) :
    listLinked ops = listSlice h ops := by
  unfold listLinked listSlice
  rw [LList.C16_partial _ (safe_of_careful ops true [] hc)]
  refine list_from ops true [] _ hc (SliceC.C19_slice_list h _ ?_ (by simpa using hs))
  intro op hop
  obtain ⟨o, ho, rfl⟩ := List.mem_map.1 hop
  have := hi o ho
  obtain ⟨op, r⟩ := o
  cases op <;> first | exact this | trivial

/-! ## Cases -/

example : PopsBlind [] ([.pop, .push 3, .push 3, .pop, .peek, .len] : List (SOp Nat)) := by
  simp [PopsBlind, stackAfter]

example : DequeuesBlind [] ([.dequeue, .enqueue 3, .enqueue 3, .dequeue, .peek, .isEmpty] : List (QOp Nat)) ∧
    enqueues ([.dequeue, .enqueue 3, .enqueue 3, .dequeue, .peek, .isEmpty] : List (QOp Nat)) = 2 := by
  simp [DequeuesBlind, queueAfter, enqueues]

example : Careful true [] ([.append 1, .append 2, .insert 1 5, .remove 0, .append 3, .at 7, .iterate fun _ => true,
    .insert 3 8, .len] : List (LOp Nat)) := by
  simp [Careful, listAfter]

/-- **C119 is false**: one element in and out again tells the implementations apart. -/
theorem C119_refuted : ¬ C119_full ∧
    (∀ h, stackLinked [(.push 1, ⟨none, 0⟩), (.pop, ⟨none, 0⟩)] ≠
      stackSlice (T := Nat) h [(.push 1, ⟨none, 0⟩), (.pop, ⟨none, 0⟩)]) ∧
    (∃ r : Ring.Ring Nat, Ring.new 1 = .ret (some r) ∧
      queueLinked [(.enqueue 1, ⟨none, 0⟩), (.dequeue, ⟨none, 0⟩)] = [.bool true, .panic] ∧
      queueRing r [(.enqueue 1, ⟨none, 0⟩), (.dequeue, ⟨none, 0⟩)] = [.bool true, .val 1]) ∧
    (∀ h, listLinked [(.remove 5, ⟨none, 0⟩), (.len, ⟨none, 0⟩)] ≠
      listSlice (T := Nat) h [(.remove 5, ⟨none, 0⟩), (.len, ⟨none, 0⟩)]) := by
  have h1 : ∀ h, stackLinked [(.push 1, ⟨none, 0⟩), (.pop, ⟨none, 0⟩)] ≠
      stackSlice (T := Nat) h [(.push 1, ⟨none, 0⟩), (.pop, ⟨none, 0⟩)] := by
    intro h
    rw [Ne, C119_stack_iff]
    simp [PopsBlind, stackAfter]
  refine ⟨fun hf => h1 ⟨fun _ _ => 0, 0⟩ (hf.1 Nat _ _), h1, ?_, ?_⟩
  · refine ⟨_, rfl, by decide, by decide⟩
  · intro h
    simp [listLinked, listSlice, LOp.linked, LOp.slice, LList.run, LList.step, LList.remove, LList.new, LList.walk,
      LList.steps, LList.len, SliceC.listRun, SliceC.listStep, SliceC.lremove, SliceC.newList, Go.Sl.nil, ofSlice]

end Verif.Dsx
