import Verif.Retain.Lemmas
import Verif.Skl.Props
import Verif.Slicex.Lemmas
/-!
# C140: what was removed from a container is not kept alive by it
-/
namespace Verif.Retain
open Verif.Go Verif.Linked

section Skl
open Verif.Skl Verif.MapSpec
variable {K V : Type} [GoOrdered K] [LawfulOrdered K] [DecidableEq K] [Inhabited K] [Inhabited V]

/-- **C140, skip-list map.** After any history, with any seed, a key and a value can be reached from the map exactly
when the map holds them; the two ends of the list hold zero values. So an overwritten value, a deleted key with its
value and everything from before `Clear` is garbage. -/
theorem C140_skl (seed : BitVec 64) (hist : List (Op K V)) :
    ∃ w, run (Skl.new seed) hist = .ret w ∧
      ∀ k v, SklKeeps w k v ↔ (k = default ∧ v = default) ∨ lookup hist k = some v := by
  obtain ⟨w, nodes, e, r, t⟩ := run_tight seed hist
  obtain ⟨w', e', hget, _⟩ := C01_finite_map seed hist
  obtain rfl : w = w' := by simpa using e.symm.trans e'
  refine ⟨w, e, fun k v => ⟨?_, ?_⟩⟩
  · rintro ⟨a, ha, rfl, rfl⟩
    rcases t.closed r ha with rfl | rfl | ha
    · exact .inl t.zh
    · exact .inl t.zt
    · exact .inr (by simpa using (hget _).symm.trans (get_node r ha))
  · rintro (⟨rfl, rfl⟩ | h)
    · exact ⟨_, .root (.inl rfl), t.zh⟩
    · have hg := hget k
      rw [h] at hg
      obtain ⟨ctx, _, ⟨x, S, hn, hx, hs⟩ | ⟨hk, hs⟩⟩ := r.search k
      · have hv : (w.heap.mem x).value = v := by simpa [Skl.get, hs] using hg
        exact ⟨x, reach_node r (by rw [hn]; simp), hx, hv⟩
      · simp [Skl.get, hs] at hg

/-- After a write, an overwrite and a deletion only the second value of key 1 is left. -/
example : ∃ w, run (Skl.new 1) [Op.set (1 : Int) (10 : Int), .set 1 11, .set 2 20, .del 2] = .ret w ∧
    SklKeeps w 1 11 ∧ ¬ SklKeeps w 1 10 ∧ ¬ SklKeeps w 2 20 := by
  obtain ⟨w, e, h⟩ := C140_skl (K := Int) (V := Int) 1 [Op.set (1 : Int) (10 : Int), .set 1 11, .set 2 20, .del 2]
  exact ⟨w, e, (h _ _).2 (by decide), fun h' => absurd ((h _ _).1 h') (by decide),
    fun h' => absurd ((h _ _).1 h') (by decide)⟩

end Skl

section Linked
variable {T : Type} [Inhabited T]

/-- **C140, linked stack.** After any history, whichever nodes the pool hands out, exactly the values on the stack can
be reached from it. -/
theorem C140_stack (ops : List (Stack.Op T)) (v : T) : StackKeeps (stackAfter ops) v ↔ v ∈ stackHolds ops := by
  obtain ⟨ns, r⟩ := stack_rep ops
  obtain ⟨h1, h2, h3⟩ := seg_stack r.seg
  rw [r.data, List.mem_map]
  constructor
  · rintro ⟨a, ha, rfl⟩
    exact ⟨a, ha.least (fun a ha => h1 a (List.mem_singleton.1 ha).symm) h2, rfl⟩
  · rintro ⟨a, ha, rfl⟩
    exact ⟨a, (h3 a ha).mono (fun a ha => List.mem_singleton.2 ha) (fun _ _ h => h), rfl⟩

example : ¬ StackKeeps (stackAfter [.push 1 none, .push 2 none, .pop]) 2 := by rw [C140_stack]; decide

/-- **C140, linked queue (partial).** As long as no node is used a second time and the queue is not empty, exactly the
queued values can be reached from it. -/
theorem C140_queue_partial (ops : List (Queue.Op T)) (hf : ∀ op ∈ ops, op.fresh) (hne : queueHolds ops ≠ []) (v : T) :
    QueueKeeps (queueAfter ops) v ↔ v ∈ queueHolds ops := by
  obtain ⟨ns, r, hl⟩ := queue_rep ops hf
  have hns : ns ≠ [] := by
    rintro rfl
    exact hne (by rw [r.data]; rfl)
  obtain ⟨h2, h3⟩ := link_next r.link hl
  have ht := r.tail hns
  have hh := r.head
  rw [r.data, List.mem_map]
  constructor
  · rintro ⟨a, ha, rfl⟩
    refine ⟨a, ha.least (fun a ha => ?_) h2, rfl⟩
    simp only [hh, ht, List.mem_cons, List.not_mem_nil, or_false] at ha
    rcases ha with ha | ha
    · exact List.mem_of_mem_head? ha.symm
    · exact List.mem_of_getLast? ha.symm
  · rintro ⟨a, ha, rfl⟩
    exact ⟨a, (h3 a ha).mono (fun a ha => by simp [hh, ha]) (fun _ _ h => h), rfl⟩

example : ¬ QueueKeeps (queueAfter [.enqueue 1 none, .enqueue 2 none, .dequeue]) 1 := by
  rw [C140_queue_partial _ (by simp [Queue.Op.fresh]) (by decide)]; decide

/-- **C140, linked list (partial).** After a history in which the methods are used within what works (`Safe`), in which
the last element was neither removed nor inserted behind, exactly the values of the list can be reached from it. -/
theorem C140_list_partial (ops : List (LList.Op T)) (hs : LList.Safe true [] ops) (he : EndStays [] ops) (v : T) :
    ListKeeps (listAfter ops) v ↔ v ∈ listHolds ops := by
  obtain ⟨ns, r⟩ := list_rep ops LList.new_rep hs he
  obtain ⟨h1, h2, h3⟩ := seg_list r.seg
  have ht := r.tail rfl
  rw [show listHolds ops = _ from r.data, List.mem_map]
  constructor
  · rintro ⟨a, ha, rfl⟩
    refine ⟨a, ha.least (fun a ha => ?_) h2, rfl⟩
    simp only [List.mem_cons, List.not_mem_nil, or_false] at ha
    rcases ha with ha | ha
    · exact h1 a ha.symm
    · exact List.mem_of_getLast? (ht.symm.trans ha.symm)
  · rintro ⟨a, ha, rfl⟩
    exact ⟨a, (h3 a ha).mono (fun a ha => by simp only [List.mem_cons]; exact .inl ha) (fun _ _ h => h), rfl⟩

example : ¬ ListKeeps (listAfter [.append 1 none, .append 2 none, .append 3 none, .remove 1]) 2 := by
  rw [C140_list_partial _ (by simp [LList.Safe, LList.SafeOp, LList.stays, LList.specStep])
    (by simp [EndStays, LList.stays, LList.specStep])]
  decide

end Linked

/-- **C140, ring: the opposite.** A ring never lets go of anything: a value it has once accepted stays in its array,
whatever is called afterwards. -/
theorem C140_ring {T : Type} [Inhabited T] {n : Int} (h0 : 0 < n) (h1 : n < 2 ^ 63 - 1) (ops ops' : List (Ring.Op T)) (v : T) :
    ∃ r : Ring.Ring T, Ring.new n = .ret (some r) ∧
      ((Ring.step (ringAfter r ops) (.enqueue v)).2 = .bool true →
        RingKeeps (ringAfter r (ops ++ .enqueue v :: ops')) v) := by
  obtain ⟨r, e, p⟩ := Ring.new_rep (T := T) h0 h1
  refine ⟨r, e, fun h => ?_⟩
  have hn : 0 < n.toNat := by omega
  obtain ⟨acc, l, p⟩ := ring_rep hn ops p
  obtain ⟨hk, acc', l', p', ha⟩ := ring_enqueue hn p v h
  have := ring_stays hn ops' p' acc (by omega)
  rw [hk] at this
  have e2 : ringAfter r (ops ++ .enqueue v :: ops') = ringAfter (Ring.step (ringAfter r ops) (.enqueue v)).1 ops' := by
    simp [ringAfter]
  rw [RingKeeps, e2]
  exact List.mem_of_getElem? this

example : ∃ r : Ring.Ring Nat, Ring.new 2 = .ret (some r) ∧ RingKeeps (ringAfter r [.enqueue 7, .dequeue, .enqueue 8, .dequeue]) 7 :=
  ⟨_, rfl, by unfold RingKeeps; decide⟩

/-- **C140, slice: the opposite.** `Pop` leaves what it returns in the array of the slice, and `Clear` leaves
everything. -/
theorem C140_slice {T : Type} [Inhabited T] (h : Hp T) (g1 g2 : Nat) (s : Sl) (o : s.Ok h) (hl : InInt64 s.len) (hne : s.len ≠ 0) :
    (∃ h' s' r, Slicex.pop h g1 g2 s = .ret ((h', s'), r) ∧ SliceKeeps h' s' r ∧ s'.len + 1 = s.len) ∧
    (∃ s', Slicex.clear s = .ret s' ∧ s'.len = 0 ∧ ∀ v ∈ elems h s, SliceKeeps h s' v) := by
  have hle := o.le
  constructor
  · have hi : index h s ((s.len : Int) - 1) = .ret (h.mem s.arr (s.off + (s.len - 1))) := by
      rw [index, if_pos (by omega), show ((s.len : Int) - 1).toNat = s.len - 1 by omega]
    have hc : Slicex.clamp2 ((s.len : Int) - 1) (wrap64 ((s.len : Int) - 1 + 1)) s.len = ((s.len : Int) - 1, (s.len : Int)) := by
      rw [show (s.len : Int) - 1 + 1 = s.len by omega, wrap64_of_in hl]
      simp only [Slicex.clamp2, Slicex.clamp]
      repeat' split
      all_goals first | omega | simp
    have hb : ∀ (h : Hp T) a p, h.blit a p [] = h := fun h a p => by simp [Hp.blit]
    refine ⟨h, ⟨s.arr, s.off, s.len - 1, s.cap⟩, _, ?_, ⟨s.off + (s.len - 1), by dsimp only; omega, rfl⟩, by dsimp only; omega⟩
    rw [Slicex.pop, if_neg hne, hi, Outcome.bind_ret, Slicex.delete, Slicex.cut, Slicex.splice, hc]
    dsimp only
    rw [reslice_ret (by omega) (by omega) (by omega), Outcome.bind_ret,
      reslice_ret (by omega) (by omega) (by omega), Outcome.bind_ret]
    simp [append, Sl.nil, elems, hb, show s.len - 1 ≤ s.cap by omega]
  · refine ⟨⟨s.arr, s.off, 0, s.cap⟩, ?_, rfl, ?_⟩
    · rw [Slicex.clear, reslice_ret (by omega) (by omega) (by omega)]; simp
    · intro v hv
      simp only [elems, List.mem_map, List.mem_range] at hv
      obtain ⟨k, hk, rfl⟩ := hv
      exact ⟨s.off + k, by dsimp only; omega, rfl⟩

example : (⟨0, 0, 2, 2⟩ : Sl).Ok (⟨fun _ i => i + 5, 1⟩ : Hp Nat) ∧ InInt64 ((⟨0, 0, 2, 2⟩ : Sl).len : Int) :=
  ⟨⟨by decide, fun _ => by decide⟩, by decide⟩

/-- What the property asks of all containers. -/
def C140_full : Prop :=
  (∀ (ops : List (Queue.Op Nat)) v, QueueKeeps (queueAfter ops) v → v = 0 ∨ v ∈ queueHolds ops) ∧
  (∀ (ops : List (LList.Op Nat)) v, LList.Safe true [] ops → ListKeeps (listAfter ops) v → v = 0 ∨ v ∈ listHolds ops) ∧
  (∀ (ops : List (Deque.Op Nat)) v, DequeKeeps (dequeAfter ops) v → v = 0 ∨ v ∈ dequeHolds ops) ∧
  (∀ (n : Int) (r : Ring.Ring Nat) (ops : List (Ring.Op Nat)) v, Ring.new n = .ret (some r) →
    RingKeeps (ringAfter r ops) v → v = 0 ∨ v ∈ ringHolds n.toNat ops) ∧
  (∀ (h h' : Hp Nat) (g1 g2 : Nat) (s s' : Sl) (r v : Nat), s.Ok h → Slicex.pop h g1 g2 s = .ret ((h', s'), r) →
    SliceKeeps h' s' v → v = 0 ∨ v ∈ elems h' s')

/-- **C140 is false of every other container.** A queue whose only element was removed keeps it through its field
`tail`; so does a list whose last element was removed; a deque does not erase the slot of its array; nor do a ring and a
slice. -/
theorem C140_refuted :
    (QueueKeeps (queueAfter [.enqueue 1 none, .dequeue]) 1 ∧ 1 ∉ queueHolds [Queue.Op.enqueue 1 none, .dequeue]) ∧
    (LList.Safe true [] [LList.Op.append 1 none, .append 2 none, .remove 1] ∧
      ListKeeps (listAfter [.append 1 none, .append 2 none, .remove 1]) 2 ∧
      2 ∉ listHolds [LList.Op.append 1 none, .append 2 none, .remove 1]) ∧
    (DequeKeeps (dequeAfter [.pushBack 1 none, .pushBack 2 none, .popFront]) 1 ∧
      1 ∉ dequeHolds [Deque.Op.pushBack 1 none, .pushBack 2 none, .popFront]) ∧
    (∃ r : Ring.Ring Nat, Ring.new 2 = .ret (some r) ∧ RingKeeps (ringAfter r [.enqueue 7, .dequeue]) 7 ∧
      7 ∉ ringHolds 2 [Ring.Op.enqueue 7, .dequeue]) ∧
    (∃ h' s', Slicex.pop (⟨fun _ i => i + 5, 1⟩ : Hp Nat) 0 0 ⟨0, 0, 2, 2⟩ = .ret ((h', s'), 6) ∧ SliceKeeps h' s' 6 ∧
      6 ∉ elems h' s') ∧
    ¬ C140_full := by
  have hq : QueueKeeps (queueAfter [.enqueue 1 none, .dequeue]) 1 := ⟨0, .root (by decide), by decide⟩
  have hll : ListKeeps (listAfter [.append 1 none, .append 2 none, .remove 1]) 2 := ⟨1, .root (by decide), by decide⟩
  have hd : DequeKeeps (dequeAfter [.pushBack 1 none, .pushBack 2 none, .popFront]) 1 :=
    ⟨0, .root (by decide), 0, by decide⟩
  refine ⟨⟨hq, by decide⟩, ⟨?_, hll, by decide⟩, ⟨hd, by decide⟩, ⟨_, rfl, by unfold RingKeeps; decide, by decide⟩,
    ⟨_, _, rfl, ⟨1, by decide, by decide⟩, by decide⟩, fun hf => ?_⟩
  · simp [LList.Safe, LList.SafeOp, LList.stays, LList.specStep]
  · exact absurd (hf.1 _ _ hq) (by decide)

/-- What lies behind the array of a slice or of a node of a deque is not kept. -/
example : SliceKeeps (⟨fun _ i => i, 1⟩ : Hp Nat) ⟨0, 1, 2, 3⟩ 3 ∧ ¬ SliceKeeps (⟨fun _ i => i, 1⟩ : Hp Nat) ⟨0, 1, 2, 3⟩ 4 ∧
    DequeKeeps (⟨⟨fun _ => ⟨fun i => i, 0, 0, none, none⟩, 1, []⟩, some 0, some 0⟩ : Deque.Deque Int) 63 ∧
    ¬ DequeKeeps (⟨⟨fun _ => ⟨fun i => i, 0, 0, none, none⟩, 1, []⟩, some 0, some 0⟩ : Deque.Deque Int) 64 := by
  refine ⟨⟨3, by decide, rfl⟩, ?_, ⟨0, .root (by simp), 63, by decide, by decide, rfl⟩, ?_⟩
  · rintro ⟨i, h, e⟩
    dsimp only at h e
    omega
  · rintro ⟨a, _, i, _, h, e⟩
    dsimp only at h e
    omega

/-- Node 1, at which both fields of a deque point, with node 2 after and node 0 before it; node 3 is nowhere. Node `a` holds the number `a`. -/
def chain : Deque.Deque Nat :=
  ⟨⟨fun a => ⟨fun _ => a, 0, 0, if a = 1 then some 0 else none, if a = 1 then some 2 else none⟩, 4, []⟩, some 1, some 1⟩

/-- A deque keeps what is in the nodes before and after the ones it points at, and in no others. -/
theorem C140_deque_pointers (v : Nat) : DequeKeeps chain v ↔ v < 3 := by
  constructor
  · rintro ⟨a, h, i, -, -, rfl⟩
    show a < 3
    induction h with
    | root h => simp [chain] at h; omega
    | @follow a b _ h _ =>
      by_cases e : a = 1
      · simp [chain, e] at h; omega
      · simp [chain, e] at h
  · intro h
    have h1 : Reachable (fun a => some a ∈ [chain.head, chain.tail]) (fun a b => (chain.mem.node a).next = some b ∨ (chain.mem.node a).prev = some b) 1 :=
      .root (by simp [chain])
    refine ⟨v, ?_, 0, by decide, by decide, rfl⟩
    match v, h with
    | 0, _ => exact h1.follow (by simp [chain])
    | 1, _ => exact h1
    | 2, _ => exact h1.follow (by simp [chain])

end Verif.Retain
