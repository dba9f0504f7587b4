import Verif.Retain.Spec
import Verif.Skl.Gone
/-!
# The pointers of the skip list stay among its nodes
-/
set_option linter.unusedSectionVars false
namespace Verif.Retain
open Verif.Go Verif.MapSpec

theorem Reachable.least {A : Type} {root : A → Prop} {points : A → A → Prop} {P : A → Prop} (h0 : ∀ a, root a → P a)
    (hs : ∀ a, P a → ∀ b, points a b → P b) {a : A} (h : Reachable root points a) : P a := by
  induction h with
  | root h => exact h0 _ h
  | follow _ e ih => exact hs _ ih _ e

theorem Reachable.mono {A : Type} {root root' : A → Prop} {points points' : A → A → Prop} (h0 : ∀ a, root a → root' a)
    (hs : ∀ a b, points a b → points' a b) {a : A} (h : Reachable root points a) : Reachable root' points' a := by
  induction h with
  | root h => exact .root (h0 _ h)
  | follow _ e ih => exact .follow ih (hs _ _ e)

section Skl
open Verif.Skl
variable {K V : Type} [GoOrdered K] [LawfulOrdered K] [DecidableEq K] [Inhabited K] [Inhabited V]

/-- Pointers above the height of a node, and all of the end mark, are nil; the two marks hold zero values. -/
structure Tight (w : World K V) (nodes : List Nat) : Prop where
  up : ∀ a ∈ nodes, ∀ i, (w.heap.mem a).height ≤ i → (w.heap.mem a).next i = none
  hd : ∀ i, maxHeight ≤ i → (w.heap.mem w.skl.head).next i = none
  tl : ∀ i, (w.heap.mem w.skl.tail).next i = none
  zh : (w.heap.mem w.skl.head).key = default ∧ (w.heap.mem w.skl.head).value = default
  zt : (w.heap.mem w.skl.tail).key = default ∧ (w.heap.mem w.skl.tail).value = default

theorem Chain.mem_next {nx : Nat → Option Nat} {tl : Nat} : ∀ {l : List Nat} {a x y : Nat}, Chain nx tl a l → x ∈ a :: l →
    nx x = some y → y ∈ l ∨ y = tl
  | [], a, x, y, h, hx, e => by
    simp only [List.mem_singleton] at hx
    subst hx
    have : nx x = some tl := h
    rw [this] at e
    exact .inr (Option.some.inj e).symm
  | b :: l, a, x, y, h, hx, e => by
    rcases List.mem_cons.1 hx with rfl | hx
    · rw [h.1] at e
      exact .inl (by rw [← Option.some.inj e]; simp)
    · rcases Chain.mem_next h.2 hx e with h | h
      · exact .inl (List.mem_cons_of_mem _ h)
      · exact .inr h

theorem Tight.closed {w : World K V} {nodes : List Nat} (r : Rep w nodes) (t : Tight w nodes) {a : Nat}
    (h : Reachable (fun a => a = w.skl.head ∨ a = w.skl.tail) (fun a b => ∃ i, (w.heap.mem a).next i = some b) a) :
    a = w.skl.head ∨ a = w.skl.tail ∨ a ∈ nodes := by
  refine h.least (P := fun a => a = w.skl.head ∨ a = w.skl.tail ∨ a ∈ nodes) (fun a h => h.imp id .inl) ?_
  rintro a ha b ⟨i, e⟩
  have key : i < maxHeight → a ∈ w.skl.head :: nodes.filter (fun a => decide (i < (w.heap.mem a).height)) →
      b = w.skl.head ∨ b = w.skl.tail ∨ b ∈ nodes := fun hi hm => by
    rcases Chain.mem_next (r.chain i hi) hm e with h | h
    · exact .inr (.inr (List.mem_filter.1 h).1)
    · exact .inr (.inl h)
  rcases ha with rfl | rfl | ha
  · by_cases hi : i < maxHeight
    · exact key hi (by simp)
    · rw [t.hd i (by omega)] at e; cases e
  · rw [t.tl i] at e; cases e
  · by_cases hi : i < (w.heap.mem a).height
    · refine key (by have := (r.height a ha).2; omega) ?_
      simp [ha, hi]
    · rw [t.up a ha i (by omega)] at e; cases e

theorem pred_height {w : World K V} {nodes : List Nat} {k : K} {i : Nat} {a : Nat} (h : a = pred w nodes k i)
    (hn : a ≠ w.skl.head) : i < (w.heap.mem a).height := by
  rcases pred_mem w nodes k i with h' | h'
  · exact absurd (h.trans h') hn
  · rw [← h] at h'
    simpa using (List.mem_filter.1 h').2

theorem Tight.old {w : World K V} {nodes : List Nat} (r : Rep w nodes) (t : Tight w nodes) (k : K) (v : V) {x : Nat}
    (hx : x ∈ nodes) (hk : (w.heap.mem x).key = k) : ∃ w', Skl.set w k v = .ret w' ∧ Rep w' nodes ∧ Tight w' nodes := by
  obtain ⟨w', e, _, r', _⟩ := r.insert_old k v hx hk
  refine ⟨w', e, r', ?_⟩
  have hh := r.ne_head
  have ht := r.ne_tail
  obtain ⟨ctx, hctx, ⟨y, S, hn, hy, hs⟩ | ⟨h, hs⟩⟩ := r.search k
  · simp only [Skl.insert, Skl.insertWith, hs, Outcome.bind_ret, Outcome.ret_inj] at e
    subst e
    have hym : y ∈ nodes := by rw [hn]; simp
    have ne : ∀ a, a ≠ y → setValue w.heap.mem y v a = w.heap.mem a := fun a ha => by simp [setValue, ha]
    have nx : ∀ a, (setValue w.heap.mem y v a).next = (w.heap.mem a).next := by
      intro a; by_cases h : a = y <;> simp [setValue, h]
    have hg : ∀ a, (setValue w.heap.mem y v a).height = (w.heap.mem a).height := by
      intro a; by_cases h : a = y <;> simp [setValue, h]
    refine ⟨?_, ?_, ?_, ?_, ?_⟩
    · intro a ha i hi; simp only [nx, hg] at hi ⊢; exact t.up a ha i hi
    · intro i hi; simp only [nx]; exact t.hd i hi
    · intro i; simp only [nx]; exact t.tl i
    · simp only [ne _ (hh y hym).symm]; exact t.zh
    · simp only [ne _ (ht y hym).symm]; exact t.zt
  · exact absurd hk (h x hx)

theorem Tight.new {w : World K V} {nodes : List Nat} (r : Rep w nodes) (t : Tight w nodes) (k : K) (v : V)
    (hk : ∀ a ∈ nodes, (w.heap.mem a).key ≠ k) :
    ∃ w' nodes', Skl.set w k v = .ret w' ∧ Rep w' nodes' ∧ Tight w' nodes' := by
  obtain ⟨w', e, f, r', _⟩ := r.insert_new k v hk
  refine ⟨w', _, e, r', ?_⟩
  have hh := r.head_lt
  have ht := r.tail_lt
  obtain ⟨ctx, hctx, ⟨y, S, hn, hy, hs⟩ | ⟨h, hs⟩⟩ := r.search k
  · exact absurd hy (hk y (by rw [hn]; simp))
  · have hr := randHeight_range w.skl.seed
    generalize hrh : randHeight w.skl.seed = rh at hr
    obtain ⟨level, seed⟩ := rh
    simp only at hr
    have hl := fun m0 : Nat → Node K V => linkLoop_spec (m := m0) (node := w.heap.brk) (ctx := ctx) (c := pred w nodes k)
      level (fun j hj => hctx j (by omega)) (fun j _ => by have := r.pred_lt k j; omega)
    simp only [Skl.insert, Skl.insertWith, hrh, hs, Outcome.bind_ret, hl, Outcome.ret_inj] at e
    subst e
    refine ⟨?_, ?_, ?_, ?_, ?_⟩
    · intro a ha i hi
      by_cases hb : a = w.heap.brk
      · subst hb
        simp only [linked, if_true] at hi ⊢
        simp [show ¬ i < level by omega]
      · have ham : a ∈ nodes := by
          rw [r.split k]
          simp only [List.mem_append, List.mem_cons] at ha ⊢
          tauto
        simp only [linked, hb, if_false] at hi ⊢
        have hp : a ≠ pred w nodes k i := fun h => by
          have := pred_height h (r.ne_head a ham)
          omega
        simp [hp, t.up a ham i hi]
    · intro i hi
      have hb : w.skl.head ≠ w.heap.brk := by omega
      simp [linked, hb, show ¬ i < level by omega, t.hd i hi]
    · intro i
      have hb : w.skl.tail ≠ w.heap.brk := by omega
      simp [linked, hb, (r.pred_ne_tail k i).symm, t.tl i]
    · have hb : w.skl.head ≠ w.heap.brk := by omega
      simp [linked, hb, t.zh]
    · have hb : w.skl.tail ≠ w.heap.brk := by omega
      simp [linked, hb, t.zt]

theorem Tight.del {w : World K V} {nodes : List Nat} (r : Rep w nodes) (t : Tight w nodes) (k : K) :
    ∃ w' nodes' b, Skl.del w k = .ret (w', b) ∧ Rep w' nodes' ∧ Tight w' nodes' := by
  by_cases hk : ∃ x ∈ nodes, (w.heap.mem x).key = k
  · obtain ⟨x, hx, hk⟩ := hk
    obtain ⟨w', e, f, _, ⟨A, B, hAB, r'⟩, _⟩ := r.delete_some k hx hk
    refine ⟨w', _, _, e, r', ?_⟩
    obtain ⟨ctx, hctx, ⟨y, S, hn, hy, hs⟩ | ⟨h, hs⟩⟩ := r.search k
    · have hym : y ∈ nodes := by rw [hn]; simp
      have hhy := r.height y hym
      have hu := unlinkLoop_spec (m := w.heap.mem) (x := y) (ctx := ctx) (c := pred w nodes k)
        (w.heap.mem y).height (fun j hj => hctx j (by omega))
      simp only [Skl.delete, hs, Outcome.bind_ret, hu, Outcome.ret_inj, Prod.mk.injEq, and_true] at e
      subst e
      refine ⟨?_, ?_, ?_, ?_, ?_⟩
      · intro a ha i hi
        have ham : a ∈ nodes := by
          rw [hAB]
          simp only [List.mem_append, List.mem_cons] at ha ⊢
          tauto
        simp only [unlinked] at hi ⊢
        have hp : a ≠ pred w nodes k i := fun h => by
          have := pred_height h (r.ne_head a ham)
          omega
        simp [hp, t.up a ham i hi]
      · intro i hi
        simp [unlinked, show ¬ i < (w.heap.mem y).height by omega, t.hd i hi]
      · intro i
        simp [unlinked, (r.pred_ne_tail k i).symm, t.tl i]
      · simp [unlinked, t.zh]
      · simp [unlinked, t.zt]
    · exact absurd hk (h x hx)
  · push Not at hk
    exact ⟨w, nodes, false, r.delete_none k hk, r, t⟩

theorem Tight.newIn (h : Heap K V) (seed : BitVec 64) : Tight (Skl.newIn h seed) [] := by
  refine ⟨by simp, ?_, ?_, ?_, ?_⟩
  · intro i hi
    simp [Skl.newIn, show ¬ i < maxHeight by omega]
  · intro i
    simp [Skl.newIn]
  · simp [Skl.newIn]
  · simp [Skl.newIn]

theorem run_tight (seed : BitVec 64) (hist : List (Op K V)) :
    ∃ w nodes, Skl.run (Skl.new seed) hist = .ret w ∧ Rep w nodes ∧ Tight w nodes := by
  induction hist using List.reverseRecOn with
  | nil => exact ⟨_, [], rfl, (new_rep seed).1, Tight.newIn _ _⟩
  | append_singleton hist op ih =>
    obtain ⟨w, nodes, e, r, t⟩ := ih
    rw [run_append, e]
    simp only [Outcome.bind_ret, run]
    cases op with
    | set k v =>
      by_cases hk : ∃ x ∈ nodes, (w.heap.mem x).key = k
      · obtain ⟨x, hx, hk⟩ := hk
        obtain ⟨w', e', r', t'⟩ := t.old r k v hx hk
        exact ⟨w', _, by simp [step, e'], r', t'⟩
      · push Not at hk
        obtain ⟨w', n', e', r', t'⟩ := t.new r k v hk
        exact ⟨w', _, by simp [step, e'], r', t'⟩
    | del k =>
      obtain ⟨w', n', b, e', r', t'⟩ := t.del r k
      exact ⟨w', _, by simp [step, e'], r', t'⟩
    | clear s => exact ⟨_, [], rfl, Rep.newIn _ _, Tight.newIn _ _⟩

theorem get_node {w : World K V} {nodes : List Nat} (r : Rep w nodes) {a : Nat} (ha : a ∈ nodes) :
    Skl.get w (w.heap.mem a).key = .ret (some (w.heap.mem a).value) := by
  obtain ⟨ctx, _, ⟨x, S, hn, hx, hs⟩ | ⟨hk, hs⟩⟩ := r.search (w.heap.mem a).key
  · have : x = a := r.key_inj (by rw [hn]; simp) ha hx
    subst this
    simp [Skl.get, hs]
  · exact absurd rfl (hk a ha)

theorem Chain.reach {nx : Nat → Option Nat} {tl : Nat} {root : Nat → Prop} {points : Nat → Nat → Prop}
    (hp : ∀ a b, nx a = some b → points a b) : ∀ {l : List Nat} {a : Nat}, Chain nx tl a l → Reachable root points a →
    ∀ b ∈ l, Reachable root points b
  | [], _, _, _ => by simp
  | c :: l, a, h, ha => by
    have hc : Reachable root points c := .follow ha (hp a c h.1)
    intro b hb
    rcases List.mem_cons.1 hb with rfl | hb
    · exact hc
    · exact Chain.reach hp h.2 hc b hb

theorem reach_node {w : World K V} {nodes : List Nat} (r : Rep w nodes) {a : Nat} (ha : a ∈ nodes) :
    Reachable (fun a => a = w.skl.head ∨ a = w.skl.tail) (fun a b => ∃ i, (w.heap.mem a).next i = some b) a := by
  refine Chain.reach (fun a b h => ⟨0, h⟩) (r.chain 0 (by decide)) (.root (.inl rfl)) a ?_
  have := (r.height a ha).1
  simp only [List.mem_filter, ha, true_and, decide_eq_true_eq]
  omega

end Skl

section Linked
open Verif.Linked
variable {T : Type} [Inhabited T]

theorem stack_rep (ops : List (Stack.Op T)) : ∃ ns, Stack.Rep (stackAfter ops) (stackHolds ops) ns := by
  induction ops using List.reverseRecOn with
  | nil => exact ⟨[], Stack.new_rep⟩
  | append_singleton ops op ih =>
    obtain ⟨ns, r⟩ := ih
    simp only [stackAfter, stackHolds, List.foldl_append, List.foldl_cons, List.foldl_nil]
    exact (Stack.step_rep r op).2

theorem seg_stack {m : Mem (Node T)} : ∀ {ns : List Nat} {p : Option Nat}, Stack.Seg m p ns →
    (∀ a, p = some a → a ∈ ns) ∧ (∀ a ∈ ns, ∀ b, (m.node a).next = some b → b ∈ ns) ∧
    ∀ a ∈ ns, Reachable (fun a => some a = p) (fun a b => (m.node a).next = some b) a
  | [], p, h => by
    have : p = none := h
    subst this
    simp
  | a :: ns, p, h => by
    obtain ⟨h1, h2, h3⟩ := seg_stack h.2
    rw [h.1]
    refine ⟨fun b hb => by rw [← Option.some.inj hb]; simp, ?_, ?_⟩
    · intro b hb c hc
      rcases List.mem_cons.1 hb with rfl | hb
      · exact List.mem_cons_of_mem _ (h1 c hc)
      · exact List.mem_cons_of_mem _ (h2 b hb c hc)
    · intro b hb
      rcases List.mem_cons.1 hb with rfl | hb
      · exact .root rfl
      · have := h3 b hb
        clear * - this h
        induction this with
        | root e => exact .follow (.root rfl) e.symm
        | follow _ e ih => exact .follow ih e

theorem queue_rep (ops : List (Queue.Op T)) (hf : ∀ op ∈ ops, op.fresh) :
    ∃ ns, Queue.Rep (queueAfter ops) (queueHolds ops) ns ∧
      ∀ t ∈ ns.getLast?, ((queueAfter ops).mem.node t).next = none := by
  induction ops using List.reverseRecOn with
  | nil => exact ⟨[], Queue.new_rep, by simp⟩
  | append_singleton ops op ih =>
    obtain ⟨ns, r, hl⟩ := ih fun o ho => hf o (by simp [ho])
    simp only [queueAfter, queueHolds, List.foldl_append, List.foldl_cons, List.foldl_nil]
    exact (Queue.step_fresh r hl op (hf op (by simp))).2

theorem link_next {m : Mem (Node T)} : ∀ {ns : List Nat}, Queue.Link m ns → (∀ t ∈ ns.getLast?, (m.node t).next = none) →
    (∀ a ∈ ns, ∀ b, (m.node a).next = some b → b ∈ ns) ∧
    ∀ a ∈ ns, Reachable (fun a => some a = ns.head?) (fun a b => (m.node a).next = some b) a
  | [], _, _ => by simp
  | [a], _, hl => by
    have := hl a (by simp)
    refine ⟨fun b hb c hc => ?_, fun b hb => ?_⟩
    · simp only [List.mem_singleton] at hb
      subst hb
      rw [this] at hc; cases hc
    · simp only [List.mem_singleton] at hb
      subst hb
      exact .root rfl
  | a :: b :: ns, h, hl => by
    obtain ⟨h2, h3⟩ := link_next h.2 (by simpa using hl)
    refine ⟨?_, ?_⟩
    · intro x hx c hc
      rcases List.mem_cons.1 hx with rfl | hx
      · rw [h.1] at hc
        rw [← Option.some.inj hc]; simp
      · exact List.mem_cons_of_mem _ (h2 x hx c hc)
    · intro x hx
      rcases List.mem_cons.1 hx with rfl | hx
      · exact .root rfl
      · have := h3 x hx
        clear * - this h
        induction this with
        | root e =>
          simp only [List.head?_cons, Option.some.injEq] at e
          subst e
          exact .follow (.root rfl) h.1
        | follow _ e ih => exact .follow ih e

theorem list_rep : ∀ (ops : List (LList.Op T)) {s : LList.LL T} {l : List T} {ns : List Nat},
    LList.Rep true s l ns → LList.Safe true l ops → EndStays l ops →
    ∃ ns', LList.Rep true (ops.foldl (fun s op => (LList.step s op).1) s)
        (ops.foldl (fun l op => (LList.specStep l op).1) l) ns'
  | [], _, _, _, r, _, _ => ⟨_, r⟩
  | op :: ops, s, l, ns, r, h, he => by
    obtain ⟨_, ns', r'⟩ := LList.step_rep r op h.1
    have h2 := h.2
    rw [he.1] at r' h2
    exact list_rep ops r' h2 he.2

theorem seg_list {m : Mem (Node T)} : ∀ {ns : List Nat} {p : Option Nat}, LList.Seg m p ns none →
    (∀ a, p = some a → a ∈ ns) ∧ (∀ a ∈ ns, ∀ b, (m.node a).next = some b → b ∈ ns) ∧
    ∀ a ∈ ns, Reachable (fun a => some a = p) (fun a b => (m.node a).next = some b) a
  | [], p, h => by
    have : p = none := h
    subst this
    simp
  | a :: ns, p, h => by
    obtain ⟨h1, h2, h3⟩ := seg_list h.2
    rw [h.1]
    refine ⟨fun b hb => by rw [← Option.some.inj hb]; simp, ?_, ?_⟩
    · intro b hb c hc
      rcases List.mem_cons.1 hb with rfl | hb
      · exact List.mem_cons_of_mem _ (h1 c hc)
      · exact List.mem_cons_of_mem _ (h2 b hb c hc)
    · intro b hb
      rcases List.mem_cons.1 hb with rfl | hb
      · exact .root rfl
      · have := h3 b hb
        clear * - this h
        induction this with
        | root e => exact .follow (.root rfl) e.symm
        | follow _ e ih => exact .follow ih e

end Linked

section Ring
open Verif.Ring hiding Ring
variable {T : Type} [Inhabited T]

theorem ring_rep {n : Nat} (hn : 0 < n) (ops : List (Ring.Op T)) : ∀ {acc : Nat} {r : Ring.Ring T} {l : List T}, Rep n acc r l →
    ∃ acc' l', Rep n acc' (ringAfter r ops) l' := by
  induction ops with
  | nil => exact fun p => ⟨_, _, p⟩
  | cons op ops ih => exact fun p => ih (step_rep p hn op).2

theorem ring_enqueue {n acc : Nat} {r : Ring.Ring T} {l : List T} (hn : 0 < n) (p : Rep n acc r l) (v : T)
    (h : (Ring.step r (.enqueue v)).2 = .bool true) :
    (Ring.step r (.enqueue v)).1.data[acc]? = some v ∧
      ∃ acc' l', Rep n acc' (Ring.step r (.enqueue v)).1 l' ∧ acc < acc' := by
  obtain ⟨e, p'⟩ := step_rep p hn (.enqueue v)
  have hlt : acc < n := by
    by_contra hge
    rw [e] at h
    simp only [realStep, if_neg hge] at h
    split at h <;> simp at h
  have ha : (realStep n acc l (.enqueue v)).1.1 = acc + 1 := by simp [realStep, hlt]
  refine ⟨?_, _, _, p', by omega⟩
  have hf : isFull r = false := by
    cases hc : isFull r with
    | false => rfl
    | true => simp [step, enqueue, hc] at h
  have ht := p.tail
  have hd := p.dlen
  have hat : at? r.data r.tail = some default := by
    simp only [at?, ht, Int.natCast_nonneg, if_true, Int.toNat_natCast]
    exact p.rest acc (Nat.le_refl _) hlt
  simp only [step, enqueue, hf, hat]
  simp [ht, hd, hlt]

theorem ring_step_data {n acc : Nat} {r : Ring.Ring T} {l : List T} (p : Rep n acc r l) (op : Ring.Op T) (i : Nat) (hi : i < acc) :
    (Ring.step r op).1.data[i]? = r.data[i]? := by
  have ht := p.tail
  cases op with
  | enqueue v =>
    simp only [step, enqueue]
    split
    · rfl
    · split
      · rfl
      · simp only [ht, Int.toNat_natCast]
        rw [List.getElem?_set_ne (by omega)]
  | dequeue =>
    simp only [step, dequeue]
    split
    · rfl
    · split <;> rfl
  | head =>
    simp only [step, Ring.head]
    split <;> rfl
  | peek =>
    simp only [step, peek]
    split
    · rfl
    · split <;> rfl
  | cap => rfl
  | isEmpty => rfl
  | isFull => rfl

theorem acc_mono (n acc : Nat) (l : List T) (op : Ring.Op T) : acc ≤ (realStep n acc l op).1.1 := by
  cases op <;> simp only [realStep] <;> (try split) <;> (try split) <;> simp

theorem ring_stays {n : Nat} (hn : 0 < n) (ops : List (Ring.Op T)) : ∀ {acc : Nat} {r : Ring.Ring T} {l : List T}, Rep n acc r l →
    ∀ i, i < acc → (ringAfter r ops).data[i]? = r.data[i]? := by
  induction ops with
  | nil => exact fun _ _ _ => rfl
  | cons op ops ih =>
    intro acc r l p i hi
    have := acc_mono n acc l op
    exact (ih (step_rep p hn op).2 i (by omega)).trans (ring_step_data p op i hi)

end Ring
end Verif.Retain
