import Verif.Footprint.Spec
import Verif.Retain.Lemmas
/-!
# What a deque reaches
-/
set_option linter.unusedSectionVars false
namespace Verif.Footprint
open Verif.Go Verif.Retain Verif.Linked Verif.Linked.Deque

variable {T : Type} [Inhabited T]

/-- With new nodes only: who has a successor is full to the end, who has a predecessor is full from the start, and the ends of the
deque have no neighbours on the outside. -/
structure Tidy (d : Deque T) : Prop where
  nx : ∀ a, (d.mem.node a).next ≠ none → (d.mem.node a).fin = nodeBufferSize
  pv : ∀ a, (d.mem.node a).prev ≠ none → (d.mem.node a).start = 0
  hd : ∀ a, d.head = some a → (d.mem.node a).prev = none
  tl : ∀ a, d.tail = some a → (d.mem.node a).next = none

theorem Tidy.new : Tidy (Deque.new : Deque T) :=
  ⟨fun _ h => absurd rfl h, fun _ h => absurd rfl h, fun _ h => (by cases h), fun _ h => (by cases h)⟩

theorem Rep.head_none {d : Deque T} {l : List T} {ns : List Nat} (r : Rep d l ns) (h : d.head = none) : d.tail = none ∧ ns = [] := by
  have : ns = [] := by
    have := r.head
    rw [h] at this
    cases ns with
    | nil => rfl
    | cons a ns => cases this
  subst this
  exact ⟨r.tail, rfl⟩

theorem Rep.tail_none {d : Deque T} {l : List T} {ns : List Nat} (r : Rep d l ns) (h : d.tail = none) : d.head = none ∧ ns = [] := by
  have : ns = [] := by
    have := r.tail
    rw [h] at this
    cases ns with
    | nil => rfl
    | cons a ns => rw [List.getLast?_cons] at this; cases this
  subst this
  exact ⟨r.head, rfl⟩

theorem Rep.head_lt {d : Deque T} {l : List T} {ns : List Nat} (r : Rep d l ns) {h : Nat} (e : d.head = some h) : h < d.mem.brk :=
  r.live.lt h (List.mem_of_mem_head? (by rw [← r.head, e]; rfl))

theorem Rep.tail_lt {d : Deque T} {l : List T} {ns : List Nat} (r : Rep d l ns) {h : Nat} (e : d.tail = some h) : h < d.mem.brk :=
  r.live.lt h (List.mem_of_getLast? (by rw [← r.tail, e]))

theorem get_none (m : Mem (DNode T)) :
    m.get none = (m.brk, { m with node := fun b => if b = m.brk then default else m.node b, brk := m.brk + 1 }) := rfl

theorem Tidy.pushFront {d : Deque T} {l : List T} {ns : List Nat} (r : Rep d l ns) (t : Tidy d) (v : T) :
    Tidy (Deque.pushFront d v none).1 := by
  obtain ⟨nx, pv, hd, tl⟩ := t
  unfold Deque.pushFront
  rw [get_none]
  cases hh : d.head with
  | none =>
    refine ⟨fun a h => ?_, fun a h => ?_, fun a h => ?_, fun a h => ?_⟩ <;> by_cases e : a = d.mem.brk <;>
      simp_all [Mem.set, default]
  | some p =>
    have hlt := Rep.head_lt r hh
    have htl : ∀ a, d.tail = some a → a ≠ d.mem.brk := fun a ha => by have := Rep.tail_lt r ha; omega
    have hne : p ≠ d.mem.brk := by omega
    have hpv := hd p hh
    have hbuf : inBuf ((d.mem.node p).start - 1) = true ∨ inBuf ((d.mem.node p).start - 1) = false := by
      cases inBuf ((d.mem.node p).start - 1) <;> simp
    dsimp only
    split
    · refine ⟨fun a h => ?_, fun a h => ?_, fun a h => ?_, fun a h => ?_⟩ <;> by_cases e : a = d.mem.brk <;> by_cases e' : a = p <;>
        simp_all [Mem.set, default]
    · rcases hbuf with hb | hb <;> simp only [hb, if_true, Bool.false_eq_true, if_false] <;>
      (refine ⟨fun a h => ?_, fun a h => ?_, fun a h => ?_, fun a h => ?_⟩ <;> by_cases e' : a = p <;>
        simp_all [Mem.set, default])

theorem Tidy.pushBack {d : Deque T} {l : List T} {ns : List Nat} (r : Rep d l ns) (t : Tidy d) (v : T) :
    Tidy (Deque.pushBack d v none).1 := by
  obtain ⟨nx, pv, hd, tl⟩ := t
  unfold Deque.pushBack
  rw [get_none]
  cases hh : d.tail with
  | none =>
    refine ⟨fun a h => ?_, fun a h => ?_, fun a h => ?_, fun a h => ?_⟩ <;> by_cases e : a = d.mem.brk <;>
      simp_all [Mem.set, default]
  | some p =>
    have hlt := Rep.tail_lt r hh
    have htl : ∀ a, d.head = some a → a ≠ d.mem.brk := fun a ha => by have := Rep.head_lt r ha; omega
    have hne : p ≠ d.mem.brk := by omega
    have hpv := tl p hh
    have hbuf : inBuf (d.mem.node p).fin = true ∨ inBuf (d.mem.node p).fin = false := by
      cases inBuf (d.mem.node p).fin <;> simp
    dsimp only
    split
    · refine ⟨fun a h => ?_, fun a h => ?_, fun a h => ?_, fun a h => ?_⟩ <;> by_cases e : a = d.mem.brk <;> by_cases e' : a = p <;>
        simp_all [Mem.set, default]
    · rcases hbuf with hb | hb <;> simp only [hb, if_true, Bool.false_eq_true, if_false]
      · refine ⟨fun a h => ?_, fun a h => ?_, fun a h => ?_, fun a h => ?_⟩ <;> by_cases e' : a = p <;>
          simp_all [Mem.set, default]
      · exact ⟨nx, pv, hd, tl⟩

theorem Tidy.popFront {d : Deque T} (t : Tidy d) : Tidy (Deque.popFront d).1 := by
  obtain ⟨nx, pv, hd, tl⟩ := t
  unfold Deque.popFront
  cases hh : d.head with
  | none => exact ⟨nx, pv, hd, tl⟩
  | some p =>
    have hpv := hd p hh
    dsimp only
    split
    · rw [set_same]
      dsimp only
      split
      · split
        · refine ⟨fun a h => ?_, fun a h => ?_, fun a h => ?_, fun a h => ?_⟩ <;> by_cases e' : a = p <;>
            simp_all [Mem.set, Mem.put]
        · rename_i b hb
          refine ⟨fun a h => ?_, fun a h => ?_, fun a h => ?_, fun a h => ?_⟩ <;> by_cases e' : a = p <;> by_cases e : a = b <;>
            simp_all [Mem.set, Mem.put]
      · refine ⟨fun a h => ?_, fun a h => ?_, fun a h => ?_, fun a h => ?_⟩ <;> by_cases e' : a = p <;>
            simp_all [Mem.set]
    · exact ⟨nx, pv, hd, tl⟩

theorem Tidy.popBack {d : Deque T} (t : Tidy d) : Tidy (Deque.popBack d).1 := by
  obtain ⟨nx, pv, hd, tl⟩ := t
  unfold Deque.popBack
  cases hh : d.tail with
  | none => exact ⟨nx, pv, hd, tl⟩
  | some p =>
    have hpv := tl p hh
    dsimp only
    rw [set_same]
    dsimp only
    split
    · split
      · split
        · refine ⟨fun a h => ?_, fun a h => ?_, fun a h => ?_, fun a h => ?_⟩ <;> by_cases e' : a = p <;>
            simp_all [Mem.set, Mem.put]
        · rename_i b hb
          refine ⟨fun a h => ?_, fun a h => ?_, fun a h => ?_, fun a h => ?_⟩ <;> by_cases e' : a = p <;> by_cases e : a = b <;>
            simp_all [Mem.set, Mem.put]
      · refine ⟨fun a h => ?_, fun a h => ?_, fun a h => ?_, fun a h => ?_⟩ <;> by_cases e' : a = p <;>
            simp_all [Mem.set]
    · refine ⟨fun a h => ?_, fun a h => ?_, fun a h => ?_, fun a h => ?_⟩ <;> by_cases e' : a = p <;>
            simp_all [Mem.set]

theorem Tidy.step {d : Deque T} {l : List T} {ns : List Nat} (r : Rep d l ns) (t : Tidy d) (op : Op T) (hf : Fresh op) :
    Tidy (step d op).1 := by
  cases op with
  | pushFront v c =>
    have : c = none := hf
    subst this
    exact t.pushFront r v
  | pushBack v c =>
    have : c = none := hf
    subst this
    exact t.pushBack r v
  | popFront => exact t.popFront
  | popBack => exact t.popBack
  | peekFront => rw [Deque.step, peekFront_rep r]; exact t
  | peekBack => rw [Deque.step, peekBack_rep r]; exact t

theorem deque_tidy : ∀ (ops : List (Op T)) {d : Deque T} {l : List T} {ns : List Nat}, Rep d l ns → Tidy d → KeepsOne l ops →
    (∀ op ∈ ops, Fresh op) → ∃ ns', Rep (ops.foldl (fun s op => (Deque.step s op).1) d) (ops.foldl (fun l op => (specStep l op).1) l) ns' ∧
      Tidy (ops.foldl (fun s op => (Deque.step s op).1) d)
  | [], _, _, _, r, t, _, _ => ⟨_, r, t⟩
  | op :: ops, _, _, _, r, t, h, hf => by
    obtain ⟨_, ns', r'⟩ := step_rep r op h.1
    exact deque_tidy ops r' (t.step r op (hf op (by simp))) h.2 fun o ho => hf o (by simp [ho])

/-- The nodes of the deque are all that is reached. -/
theorem link_closed {m : Mem (DNode T)} : ∀ {ns : List Nat}, Link m ns → (∀ a, ns.head? = some a → (m.node a).prev = none) →
    (∀ a, ns.getLast? = some a → (m.node a).next = none) →
    ∀ a ∈ ns, (∀ b, (m.node a).next = some b → b ∈ ns) ∧ ∀ b, (m.node a).prev = some b → b ∈ ns := by
  have next : ∀ {ns : List Nat}, Link m ns → (∀ a, ns.getLast? = some a → (m.node a).next = none) →
      ∀ a ∈ ns, ∀ b, (m.node a).next = some b → b ∈ ns := by
    intro ns
    induction ns with
    | nil => simp
    | cons a ns ih =>
      intro h hl x hx b hb
      cases ns with
      | nil =>
        simp only [List.mem_singleton] at hx
        subst hx
        rw [hl x rfl] at hb
        cases hb
      | cons c ns =>
        rcases List.mem_cons.1 hx with rfl | hx
        · rw [h.1] at hb
          rw [← Option.some.inj hb]; simp
        · exact List.mem_cons_of_mem _ (ih h.2.2 (by simpa using hl) x hx b hb)
  have prev : ∀ {ns : List Nat} {a : Nat}, Link m (a :: ns) → ∀ x ∈ ns, ∀ b, (m.node x).prev = some b → b ∈ a :: ns := by
    intro ns
    induction ns with
    | nil => simp
    | cons c ns ih =>
      intro a h x hx b hb
      rcases List.mem_cons.1 hx with rfl | hx
      · rw [h.2.1] at hb
        rw [← Option.some.inj hb]; simp
      · exact List.mem_cons_of_mem _ (ih h.2.2 x hx b hb)
  intro ns h hh hl a ha
  refine ⟨next h hl a ha, fun b hb => ?_⟩
  cases ns with
  | nil => cases ha
  | cons c ns =>
    rcases List.mem_cons.1 ha with rfl | ha
    · rw [hh a rfl] at hb
      cases hb
    · exact prev h a ha b hb

theorem link_reach {m : Mem (DNode T)} {root : Nat → Prop} : ∀ {ns : List Nat} {a : Nat}, Link m (a :: ns) →
    Reachable root (fun a b => (m.node a).next = some b ∨ (m.node a).prev = some b) a →
    ∀ b ∈ a :: ns, Reachable root (fun a b => (m.node a).next = some b ∨ (m.node a).prev = some b) b
  | [], a, _, h => by simpa using h
  | c :: ns, a, hl, h => by
    have hc : Reachable root (fun a b => (m.node a).next = some b ∨ (m.node a).prev = some b) c := .follow h (.inl hl.1)
    intro b hb
    rcases List.mem_cons.1 hb with rfl | hb
    · exact h
    · exact link_reach hl.2.2 hc b hb

theorem deque_reach {d : Deque T} {l : List T} {ns : List Nat} (r : Rep d l ns) (t : Tidy d) (a : Nat) : a ∈ ns ↔ DequeNode d a := by
  constructor
  · intro ha
    cases ns with
    | nil => cases ha
    | cons c ns => exact link_reach r.link (.root (by rw [r.head]; simp)) a ha
  · intro h
    have hc := link_closed r.link (fun a ha => t.hd a (r.head.trans ha)) (fun a ha => t.tl a (r.tail.trans ha))
    refine h.least (P := fun a => a ∈ ns) (fun a ha => ?_) (fun a ha b hb => ?_)
    · simp only [List.mem_cons, List.not_mem_nil, or_false, r.head, r.tail] at ha
      rcases ha with ha | ha
      · exact List.mem_of_mem_head? ha.symm
      · exact List.mem_of_getLast? ha.symm
    · exact hb.elim ((hc a ha).1 b) ((hc a ha).2 b)

theorem contents_length (n : DNode T) : (contents n).length = (n.fin - n.start).toNat := by
  have : ∀ (f : Int → T) (k : Nat) (s : Int), (seg f s k).length = k := by
    intro f k
    induction k with
    | zero => simp [seg]
    | succ k ih => simp [seg, ih]
  exact this _ _ _

/-- All nodes but the first and the last are full. -/
theorem link_full {m : Mem (DNode T)} (nx : ∀ a, (m.node a).next ≠ none → (m.node a).fin = nodeBufferSize)
    (pv : ∀ a, (m.node a).prev ≠ none → (m.node a).start = 0) : ∀ {ns : List Nat} {a : Nat}, Link m (a :: ns) →
    (∀ x ∈ a :: ns, Ok (m.node x)) → (m.node a).start = 0 →
    64 * (a :: ns).length ≤ ((a :: ns).flatMap fun a => contents (m.node a)).length + 63
  | [], a, _, h, hs => by
    have := h a (by simp)
    have h1 := this.ne
    simp only [List.flatMap_cons, List.flatMap_nil, List.append_nil, contents_length, List.length_cons, List.length_nil]
    omega
  | c :: ns, a, hl, h, hs => by
    have ih := link_full nx pv hl.2.2 (fun x hx => h x (List.mem_cons_of_mem _ hx)) (pv c (by rw [hl.2.1]; simp))
    have hf := nx a (by rw [hl.1]; simp)
    rw [List.flatMap_cons, List.length_append, contents_length, hs, hf, List.length_cons]
    simp only [nodeBufferSize] at *
    omega

theorem deque_full {d : Deque T} {l : List T} {ns : List Nat} (r : Rep d l ns) (t : Tidy d) : 64 * ns.length ≤ l.length + 126 := by
  rw [r.data]
  have hl := r.link
  have hk := r.ok
  cases ns with
  | nil => simp
  | cons a ns =>
    have ha := (hk a (by simp)).ne
    have e : ((a :: ns).flatMap fun a => contents (d.mem.node a)).length =
        ((d.mem.node a).fin - (d.mem.node a).start).toNat + (ns.flatMap fun a => contents (d.mem.node a)).length := by
      rw [List.flatMap_cons, List.length_append, contents_length]
    cases ns with
    | nil =>
      rw [e]
      simp only [List.length_cons, List.length_nil]
      omega
    | cons c ns =>
      have := link_full t.nx t.pv hl.2.2 (fun x hx => hk x (List.mem_cons_of_mem _ hx)) (t.pv c (by rw [hl.2.1]; simp))
      rw [e]
      simp only [List.length_cons] at this ⊢
      omega

/-- The last node of a queue points nowhere if every node is used once. -/
theorem queue_tail (ops : List (Queue.Op T)) (hf : ∀ op ∈ ops, op.fresh) (t : Nat) (ht : (queueAfter ops).tail = some t) :
    ((queueAfter ops).mem.node t).next = none ∧ t < (queueAfter ops).mem.brk := by
  induction ops using List.reverseRecOn generalizing t with
  | nil => cases ht
  | append_singleton ops op ih =>
    have ih := ih fun o ho => hf o (by simp [ho])
    have hop := hf op (by simp)
    simp only [queueAfter, List.foldl_append, List.foldl_cons, List.foldl_nil] at ht ⊢
    change ∀ t, (queueAfter ops).tail = some t → ((queueAfter ops).mem.node t).next = none ∧ t < (queueAfter ops).mem.brk at ih
    change (Queue.step (queueAfter ops) op).1.tail = some t at ht
    change ((Queue.step (queueAfter ops) op).1.mem.node t).next = none ∧ t < (Queue.step (queueAfter ops) op).1.mem.brk
    generalize queueAfter ops = q at ih ht ⊢
    cases op with
    | enqueue v c =>
      have : c = none := hop
      subst this
      simp only [Queue.step, Queue.enqueue, Mem.get, Option.bind_none] at ht ⊢
      cases hh : q.head with
      | none =>
        simp only [hh, Option.some.injEq] at ht ⊢
        subst ht
        simp [Mem.setData, Mem.set, default]
      | some a =>
        simp only [hh] at ht ⊢
        cases hq : q.tail with
        | none => simp [hq] at ht
        | some b =>
          have hb := (ih b hq).2
          simp only [hq, Option.some.injEq] at ht ⊢
          subst ht
          have hne : q.mem.brk ≠ b := by omega
          simp [Mem.setData, Mem.setNext, Mem.set, default, hne]
    | dequeue =>
      simp only [Queue.step, Queue.dequeue] at ht ⊢
      cases hh : q.head with
      | none =>
        simp only [hh] at ht ⊢
        exact ih t ht
      | some a =>
        simp only [hh] at ht ⊢
        cases hn : ((q.mem.put a).node a).next with
        | none =>
          simp only [hn] at ht ⊢
          exact ih t ht
        | some b =>
          simp only [hn] at ht ⊢
          exact ih t ht
    | peek =>
      have hq : (Queue.step q .peek).1 = q := by simp only [Queue.step, Queue.peek]; split <;> rfl
      rw [hq] at ht ⊢
      exact ih t ht
    | isEmpty => exact ih t ht

end Verif.Footprint
