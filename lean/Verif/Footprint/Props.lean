import Verif.Footprint.Leak
import Verif.Skl.Props
/-!
# C152: a container keeps no more nodes in memory than it needs for what is in it
-/
namespace Verif.Footprint
open Verif.Go Verif.Retain Verif.Linked

section Skl
open Verif.Skl Verif.MapSpec
variable {K V : Type} [GoOrdered K] [LawfulOrdered K] [DecidableEq K] [Inhabited K] [Inhabited V]

/-- **C152, skip-list map.** After any history the map keeps two nodes more than it has keys. -/
theorem C152_skl (seed : BitVec 64) (hist : List (Op K V)) (ks : List K) (hks : PresentKeys hist ks) :
    ∃ w, run (Skl.new seed) hist = .ret w ∧ Exactly (ks.length + 2) (SklNode w) := by
  obtain ⟨w, nodes, e, r, t⟩ := run_tight seed hist
  refine ⟨w, e, w.skl.head :: w.skl.tail :: nodes, ?_, ?_, fun a => ⟨fun ha => ?_, fun ha => ?_⟩⟩
  · have hn : nodes.Nodup := r.sorted.imp fun {a b} hab e => by
      subst e
      rw [LawfulOrdered.irrefl] at hab
      cases hab
    refine List.nodup_cons.2 ⟨fun h => ?_, List.nodup_cons.2 ⟨fun h => r.ne_tail _ h rfl, hn⟩⟩
    rcases List.mem_cons.1 h with h | h
    · exact r.head_ne h
    · exact r.ne_head _ h rfl
  · obtain ⟨w', e', -, -, -, ks', hks', hl⟩ := C01_finite_map seed hist
    obtain rfl : w = w' := by simpa using e.symm.trans e'
    have := C01_len_unique hist ks ks' hks hks'
    have := r.len
    simp only [Skl.len] at hl
    simp only [List.length_cons]
    omega
  · simp only [List.mem_cons] at ha
    rcases ha with rfl | rfl | ha
    · exact .root (.inl rfl)
    · exact .root (.inr rfl)
    · exact reach_node r ha
  · simp only [List.mem_cons]
    exact t.closed r ha

/-- Two keys are left, so four nodes. -/
example : ∃ w, run (Skl.new 7) [Op.set (1 : Int) (10 : Int), .set 2 20, .set 1 11, .set 3 30, .del 2] = .ret w ∧ Exactly 4 (SklNode w) := by
  refine C152_skl 7 [Op.set (1 : Int) (10 : Int), .set 2 20, .set 1 11, .set 3 30, .del 2] [1, 3] ⟨by decide, fun k => ?_⟩
  by_cases h1 : k = 1
  · subst h1; decide
  · by_cases h2 : k = 2
    · subst h2; decide
    · by_cases h3 : k = 3
      · subst h3; decide
      · simp [lookup, h1, h2, h3]

end Skl

variable {T : Type} [Inhabited T]

/-- **C152, linked stack.** After any history, whichever nodes the pool hands out, the stack keeps one node for each element. -/
theorem C152_stack (ops : List (Stack.Op T)) : Exactly (stackHolds ops).length (StackNode (stackAfter ops)) := by
  obtain ⟨ns, r⟩ := stack_rep ops
  obtain ⟨h1, h2, h3⟩ := seg_stack r.seg
  refine ⟨ns, r.live.nodup, by rw [r.data, List.length_map], fun a => ⟨fun ha => ?_, fun ha => ?_⟩⟩
  · exact (h3 a ha).mono (fun a ha => List.mem_singleton.2 ha) (fun _ _ h => h)
  · exact ha.least (P := fun a => a ∈ ns) (fun a ha => h1 a (List.mem_singleton.1 ha).symm) h2

example : Exactly 2 (StackNode (stackAfter [.push 1 none, .push 2 none, .pop, .push 3 (some 0)])) :=
  C152_stack [.push 1 none, .push 2 none, .pop, .push 3 (some 0)]

/-- **C152, linked queue (partial).** As long as no node is used a second time, the queue keeps one node for each element, and one if
it is empty but has not always been. -/
theorem C152_queue_partial (ops : List (Queue.Op T)) (hf : ∀ op ∈ ops, op.fresh) :
    ∃ n, n ≤ max 1 (queueHolds ops).length ∧ (queueHolds ops ≠ [] → n = (queueHolds ops).length) ∧ Exactly n (QueueNode (queueAfter ops)) := by
  obtain ⟨ns, r, hl⟩ := queue_rep ops hf
  have hh := r.head
  have hlen : (queueHolds ops).length = ns.length := by rw [r.data, List.length_map]
  by_cases hns : ns = []
  · subst hns
    have he : queueHolds ops = [] := List.length_eq_zero_iff.1 (by simpa using hlen)
    cases ht : (queueAfter ops).tail with
    | none =>
      refine ⟨0, by omega, fun h => absurd he h, [], by simp, rfl, fun a => ⟨fun h => (by cases h), fun h => ?_⟩⟩
      refine (h.least (P := fun _ => False) (fun a ha => ?_) fun _ h => h.elim).elim
      simp [hh, ht] at ha
    | some t =>
      refine ⟨1, by omega, fun h => absurd he h, [t], by simp, rfl, fun a => ⟨fun h => ?_, fun h => ?_⟩⟩
      · obtain rfl : a = t := by simpa using h
        exact .root (by simp [ht])
      · refine h.least (P := fun a => a ∈ [t]) (fun a ha => ?_) fun a ha b hb => ?_
        · simpa [hh, ht] using ha
        · obtain rfl : a = t := by simpa using ha
          rw [(queue_tail ops hf a ht).1] at hb
          cases hb
  · obtain ⟨h2, h3⟩ := link_next r.link hl
    have ht := r.tail hns
    refine ⟨ns.length, by omega, fun _ => hlen.symm, ns, r.live.nodup, rfl, fun a => ⟨fun ha => ?_, fun ha => ?_⟩⟩
    · exact (h3 a ha).mono (fun a ha => by simp [hh, ha]) (fun _ _ h => h)
    · refine ha.least (P := fun a => a ∈ ns) (fun a ha => ?_) h2
      simp only [hh, ht, List.mem_cons, List.not_mem_nil, or_false] at ha
      rcases ha with ha | ha
      · exact List.mem_of_mem_head? ha.symm
      · exact List.mem_of_getLast? ha.symm

example : Exactly 2 (QueueNode (queueAfter [.enqueue 1 none, .enqueue 2 none, .enqueue 3 none, .dequeue])) := by
  obtain ⟨n, -, h, e⟩ := C152_queue_partial [.enqueue 1 none, .enqueue 2 none, .enqueue 3 none, .dequeue] (by simp [Queue.Op.fresh])
  rw [h (by decide)] at e
  exact e

/-- **C152, linked list (partial).** After a history in which the methods are used within what works (`Safe`), in which
the last element was neither removed nor inserted behind, the list keeps one node for each element. -/
theorem C152_list_partial (ops : List (LList.Op T)) (hs : LList.Safe true [] ops) (he : EndStays [] ops) :
    Exactly (listHolds ops).length (ListNode (listAfter ops)) := by
  obtain ⟨ns, r⟩ := list_rep ops LList.new_rep hs he
  obtain ⟨h1, h2, h3⟩ := seg_list r.seg
  have ht := r.tail rfl
  refine ⟨ns, r.live.nodup, by rw [show listHolds ops = _ from r.data, List.length_map], fun a => ⟨fun ha => ?_, fun ha => ?_⟩⟩
  · exact (h3 a ha).mono (fun a ha => by simp only [List.mem_cons]; exact .inl ha) (fun _ _ h => h)
  · refine ha.least (P := fun a => a ∈ ns) (fun a ha => ?_) h2
    simp only [List.mem_cons, List.not_mem_nil, or_false] at ha
    rcases ha with ha | ha
    · exact h1 a ha.symm
    · exact List.mem_of_getLast? (ht.symm.trans ha.symm)

example : Exactly 2 (ListNode (listAfter [.append 1 none, .append 2 none, .append 3 none, .remove 1])) :=
  C152_list_partial [.append 1 none, .append 2 none, .append 3 none, .remove 1]
    (by simp [LList.Safe, LList.SafeOp, LList.stays, LList.specStep]) (by simp [EndStays, LList.stays, LList.specStep])

/-- **C152, deque (partial).** As long as no pop takes the last element and no node is used a second time, all nodes but the two at the
ends are full. -/
theorem C152_deque_partial (ops : List (Deque.Op T)) (hk : Deque.KeepsOne [] ops) (hf : ∀ op ∈ ops, Fresh op) :
    ∃ n, 64 * n ≤ (dequeHolds ops).length + 126 ∧ Exactly n (DequeNode (dequeAfter ops)) := by
  obtain ⟨ns, r, t⟩ := deque_tidy ops Deque.new_rep Tidy.new hk hf
  exact ⟨ns.length, deque_full r t, ns, r.live.nodup, rfl, deque_reach r t⟩

/-- Two nodes at most for two elements. -/
example : ∃ n, n ≤ 2 ∧ Exactly n (DequeNode (dequeAfter [.pushBack 1 none, .pushFront 2 none, .pushFront 3 none, .popBack])) := by
  obtain ⟨n, h, e⟩ := C152_deque_partial [.pushBack 1 none, .pushFront 2 none, .pushFront 3 none, .popBack]
    (by simp [Deque.KeepsOne, Deque.specStep]) (by simp [Fresh])
  rw [show (dequeHolds [.pushBack 1 none, .pushFront 2 none, .pushFront 3 none, .popBack] : List Nat).length = 2 from rfl] at h
  exact ⟨n, by omega, e⟩

/-- What the property asks: how many nodes a list or a deque keeps has a bound that depends only on how many elements were in it at a
time. -/
def C152_full : Prop :=
  (∃ f : Nat → Nat, ∀ (ops : List (LList.Op Nat)) m n, LList.Safe true [] ops → ListMax m ops →
    AtLeast n (ListNode (listAfter ops)) → n ≤ f m) ∧
  ∃ f : Nat → Nat, ∀ (ops : List (Deque.Op Nat)) m n, Deque.KeepsOne [] ops → DequeMax m ops →
    AtLeast n (DequeNode (dequeAfter ops)) → n ≤ f m

/-- **C152 is false of the list and of the deque.** Within what works, and without ever more than two elements, both can come to keep
any number of nodes: a list that is used as a queue with `Insert` and `Remove`, since `tail` stays at the node that `Append` made, and
a deque that gets nodes back from its pool, since `PushFront` does not reset `prev`. -/
theorem C152_refuted (k : Nat) :
    (LList.Safe true [] (listLeak k : List (LList.Op T)) ∧ ListMax 2 (listLeak k : List (LList.Op T)) ∧
      listHolds (listLeak k : List (LList.Op T)) = [default] ∧ AtLeast (k + 2) (ListNode (listAfter (listLeak k : List (LList.Op T))))) ∧
    (Deque.KeepsOne [] (dequeLeak k : List (Deque.Op T)) ∧ DequeMax 2 (dequeLeak k : List (Deque.Op T)) ∧
      dequeHolds (dequeLeak k : List (Deque.Op T)) = [default] ∧ AtLeast (k + 1) (DequeNode (dequeAfter (dequeLeak k : List (Deque.Op T))))) ∧
    ¬ C152_full := by
  obtain ⟨h1, h2, h3⟩ := listLeak_fine (T := T) k
  obtain ⟨h4, h5, h6⟩ := dequeLeak_fine (T := T) k
  refine ⟨⟨h1, h2, h3, list_leak k⟩, ⟨h4, h5, h6, deque_leak k⟩, fun h => ?_⟩
  obtain ⟨⟨f, hf⟩, -⟩ := h
  obtain ⟨g1, g2, -⟩ := listLeak_fine (T := Nat) (f 2)
  have := hf _ 2 _ g1 g2 (list_leak (f 2))
  omega

end Verif.Footprint
