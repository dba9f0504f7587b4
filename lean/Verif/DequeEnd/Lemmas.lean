import Verif.DequeEnd.Spec
/-!
# The linked deque with new nodes: emptying and refilling
-/
set_option linter.unusedSectionVars false
namespace Verif.DequeEnd
open Verif.Linked Verif.Linked.Deque

variable {T : Type} [Inhabited T]

/-- The outer links of the end nodes are nil. -/
structure EndsNil (d : Deque T) : Prop where
  next : ∀ t, d.tail = some t → (d.mem.node t).next = none
  prev : ∀ h, d.head = some h → (d.mem.node h).prev = none

theorem get_none (m : Mem (DNode T)) : m.get none =
    (m.brk, { m with node := fun b => if b = m.brk then default else m.node b, brk := m.brk + 1 }) := rfl

theorem lt_head {d : Deque T} {l : List T} {ns : List Nat} (r : Rep d l ns) {h : Nat} (hh : d.head = some h) :
    h < d.mem.brk := r.live.lt h (by rw [r.head] at hh; exact List.mem_of_head? hh)

theorem lt_tail {d : Deque T} {l : List T} {ns : List Nat} (r : Rep d l ns) {t : Nat} (ht : d.tail = some t) :
    t < d.mem.brk := r.live.lt t (by rw [r.tail] at ht; exact List.mem_of_getLast? ht)

theorem dflt_next : (default : DNode T).next = none := rfl
theorem dflt_prev : (default : DNode T).prev = none := rfl

theorem pushFront_ends {d : Deque T} {l : List T} {ns : List Nat} (r : Rep d l ns) (e : EndsNil d) (v : T) :
    EndsNil (pushFront d v none).1 := by
  unfold pushFront
  rw [get_none]
  split
  · constructor
    · intro t ht
      cases ht
      simp [Mem.set, dflt_next]
    · intro t ht
      cases ht
      simp [Mem.set, dflt_prev]
  · rename_i h hh
    have hlt := lt_head r hh
    split
    · constructor
      · intro t ht
        have ht : d.tail = some t := ht
        have h1 := e.next t ht
        have h2 := lt_tail r ht
        by_cases hth : t = h
        · subst hth
          simp [Mem.set, show t ≠ d.mem.brk by omega, h1]
        · simp [Mem.set, hth, show t ≠ d.mem.brk by omega, h1]
      · intro t ht
        cases ht
        simp [Mem.set, show d.mem.brk ≠ h by omega, dflt_prev]
    · simp only
      split
      · constructor
        · intro t ht
          have h1 := e.next t ht
          by_cases hth : t = h
          · subst hth; simp [Mem.set, h1]
          · simp [Mem.set, hth, h1]
        · intro t ht
          have h1 := e.prev t ht
          by_cases hth : t = h
          · subst hth; simp [Mem.set, h1]
          · simp [Mem.set, hth, h1]
      · constructor
        · intro t ht
          have h1 := e.next t ht
          by_cases hth : t = h
          · subst hth; simp [Mem.set, h1]
          · simp [Mem.set, hth, h1]
        · intro t ht
          have h1 := e.prev t ht
          by_cases hth : t = h
          · subst hth; simp [Mem.set, h1]
          · simp [Mem.set, hth, h1]

theorem pushBack_ends {d : Deque T} {l : List T} {ns : List Nat} (r : Rep d l ns) (e : EndsNil d) (v : T) :
    EndsNil (pushBack d v none).1 := by
  unfold pushBack
  rw [get_none]
  split
  · constructor
    · intro t ht
      cases ht
      simp [Mem.set, dflt_next]
    · intro t ht
      cases ht
      simp [Mem.set, dflt_prev]
  · rename_i h hh
    have hlt := lt_tail r hh
    split
    · constructor
      · intro t ht
        cases ht
        simp [Mem.set, show d.mem.brk ≠ h by omega, dflt_next]
      · intro t ht
        have ht : d.head = some t := ht
        have h1 := e.prev t ht
        have h2 := lt_head r ht
        by_cases hth : t = h
        · subst hth
          simp [Mem.set, show t ≠ d.mem.brk by omega, h1]
        · simp [Mem.set, hth, show t ≠ d.mem.brk by omega, h1]
    · simp only
      split
      · constructor
        · intro t ht
          have h1 := e.next t ht
          by_cases hth : t = h
          · subst hth; simp [Mem.set, h1]
          · simp [Mem.set, hth, h1]
        · intro t ht
          have h1 := e.prev t ht
          by_cases hth : t = h
          · subst hth; simp [Mem.set, h1]
          · simp [Mem.set, hth, h1]
      · exact e

theorem popFront_ends {d : Deque T} {l : List T} {ns : List Nat} (r : Rep d l ns) (e : EndsNil d) :
    EndsNil (popFront d).1 := by
  unfold popFront
  split
  · exact e
  · rename_i h hh
    split
    · have n1 : ∀ t, d.tail = some t →
          ((d.mem.set h { d.mem.node h with start := (d.mem.node h).start + 1 }).node t).next = none := by
        intro t ht
        have h1 := e.next t ht
        by_cases hth : t = h
        · subst hth; simp [Mem.set, h1]
        · simp [Mem.set, hth, h1]
      simp only
      split
      · split
        · exact ⟨n1, fun _ h => by cases h⟩
        · rename_i b hb
          refine ⟨fun t ht => ?_, fun t ht => ?_⟩
          · have := n1 t ht
            by_cases htb : t = b
            · subst htb; rw [set_same]; exact this
            · rw [set_ne _ _ htb]; exact this
          · cases ht
            simp [Mem.set]
      · refine ⟨n1, fun t ht => ?_⟩
        have h1 := e.prev t ht
        by_cases hth : t = h
        · subst hth; simp [Mem.set, h1]
        · simp [Mem.set, hth, h1]
    · exact e

theorem popBack_ends {d : Deque T} {l : List T} {ns : List Nat} (r : Rep d l ns) (e : EndsNil d) :
    EndsNil (popBack d).1 := by
  unfold popBack
  split
  · exact e
  · rename_i h hh
    have n1 : ∀ t, d.head = some t →
        ((d.mem.set h { d.mem.node h with fin := (d.mem.node h).fin - 1 }).node t).prev = none := by
      intro t ht
      have h1 := e.prev t ht
      by_cases hth : t = h
      · subst hth; simp [Mem.set, h1]
      · simp [Mem.set, hth, h1]
    have n2 : ∀ t, d.tail = some t →
        ((d.mem.set h { d.mem.node h with fin := (d.mem.node h).fin - 1 }).node t).next = none := by
      intro t ht
      have h1 := e.next t ht
      by_cases hth : t = h
      · subst hth; simp [Mem.set, h1]
      · simp [Mem.set, hth, h1]
    simp only
    split
    · split
      · split
        · exact ⟨fun _ h => by (cases h), n1⟩
        · rename_i b hb
          refine ⟨fun t ht => ?_, fun t ht => ?_⟩
          · cases ht
            simp [Mem.set]
          · have := n1 t ht
            by_cases htb : t = b
            · subst htb; rw [set_same]; exact this
            · rw [set_ne _ _ htb]; exact this
      · exact ⟨n2, n1⟩
    · exact ⟨n2, n1⟩

/-- Taking the last element at the front. The node stays the tail. -/
theorem popFront_last {d : Deque T} {x : T} {ns : List Nat} (r : Rep d [x] ns) (e : EndsNil d) :
    (popFront d).2 = .val x ∧ (popFront d).1.head = none ∧ Live (popFront d).1.mem [] ∧
      peekBack (popFront d).1 = ((popFront d).1, .val x) ∧ (popBack (popFront d).1).2 = .val x ∧
      ∀ y c, (pushBack (popFront d).1 y c).2 = .unit ∧ (pushBack (popFront d).1 y c).1.head = none := by
  cases ns with
  | nil => have := r.data; simp at this
  | cons h ns =>
    have hok := r.ok h (by simp)
    have hok1 := hok.lo
    have hok2 := hok.ne
    have hok3 := hok.hi
    have hdata := r.data
    rw [List.flatMap_cons, contents_front hok.ne] at hdata
    have hlen := congrArg List.length hdata
    have hns : ns = [] := by
      cases ns with
      | nil => rfl
      | cons b ns =>
        have hb := (r.ok b (by simp)).ne
        rw [List.flatMap_cons, contents_front hb] at hlen
        simp at hlen
    subst hns
    have hfin : (d.mem.node h).start + 1 = (d.mem.node h).fin := by
      by_contra hne
      have : ∃ k, ((d.mem.node h).fin - ((d.mem.node h).start + 1)).toNat = k + 1 := ⟨_, (Nat.succ_pred (by omega)).symm⟩
      obtain ⟨k, hk⟩ := this
      rw [hk] at hlen
      simp [seg] at hlen
    have hx : x = (d.mem.node h).data (d.mem.node h).start := by
      simp only [List.cons_append] at hdata
      exact (List.cons.inj hdata).1
    have hh : d.head = some h := by simpa using r.head
    have ht : d.tail = some h := by simpa using r.tail
    have hnx := e.next h ht
    have hb : inBuf (d.mem.node h).start = true := by simp [inBuf]; omega
    have hb' : inBuf ((d.mem.node h).fin - 1) = true := by rw [← hfin]; simpa using hb
    have hp : popFront d = (⟨(d.mem.set h { d.mem.node h with start := (d.mem.node h).start + 1 }).put h, none, d.tail⟩,
        .val x) := by
      simp [popFront, hh, hb, hfin, hnx, hx]
    have hx' : (d.mem.node h).data ((d.mem.node h).fin - 1) = x := by rw [hx, ← hfin]; simp
    rw [hp]
    refine ⟨rfl, rfl, put_spec (r.live.set _ _), ?_, ?_, ?_⟩
    · simp [peekBack, ht, hb', hx']
    · simp only [popBack, ht, put_node, set_same, hb', if_true, hx']
      repeat' split
      all_goals rfl
    · intro y c
      simp only [pushBack, ht, put_node, set_same]
      by_cases h64 : (d.mem.node h).fin = nodeBufferSize
      · simp [h64]
      · have hb2 : inBuf (d.mem.node h).fin = true := by
          simp [inBuf]; omega
        simp [h64, hb2]

/-- Taking the last element at the back. The node stays the head. -/
theorem popBack_last {d : Deque T} {x : T} {ns : List Nat} (r : Rep d [x] ns) (e : EndsNil d) :
    (popBack d).2 = .val x ∧ (popBack d).1.tail = none ∧ Live (popBack d).1.mem [] ∧
      peekFront (popBack d).1 = ((popBack d).1, .val x) ∧ (popFront (popBack d).1).2 = .val x ∧
      ∀ y c, (pushFront (popBack d).1 y c).2 = .unit ∧ (pushFront (popBack d).1 y c).1.tail = none := by
  cases ns with
  | nil => have := r.data; simp at this
  | cons h ns =>
    have hok := r.ok h (by simp)
    have hok1 := hok.lo
    have hok2 := hok.ne
    have hok3 := hok.hi
    have hdata := r.data
    rw [List.flatMap_cons, contents_front hok.ne] at hdata
    have hlen := congrArg List.length hdata
    have hns : ns = [] := by
      cases ns with
      | nil => rfl
      | cons b ns =>
        have hb := (r.ok b (by simp)).ne
        rw [List.flatMap_cons, contents_front hb] at hlen
        simp at hlen
    subst hns
    have hfin : (d.mem.node h).start + 1 = (d.mem.node h).fin := by
      by_contra hne
      have : ∃ k, ((d.mem.node h).fin - ((d.mem.node h).start + 1)).toNat = k + 1 := ⟨_, (Nat.succ_pred (by omega)).symm⟩
      obtain ⟨k, hk⟩ := this
      rw [hk] at hlen
      simp [seg] at hlen
    have hx : x = (d.mem.node h).data (d.mem.node h).start := by
      simp only [List.cons_append] at hdata
      exact (List.cons.inj hdata).1
    have hh : d.head = some h := by simpa using r.head
    have ht : d.tail = some h := by simpa using r.tail
    have hpv := e.prev h hh
    have hb : inBuf (d.mem.node h).start = true := by simp [inBuf]; omega
    have hs : (d.mem.node h).fin - 1 = (d.mem.node h).start := by omega
    have hp : popBack d = (⟨(d.mem.set h { d.mem.node h with fin := (d.mem.node h).fin - 1 }).put h, d.head, none⟩,
        .val x) := by
      simp [popBack, ht, hs, hb, hpv, hx]
    rw [hp]
    refine ⟨rfl, rfl, put_spec (r.live.set _ _), ?_, ?_, ?_⟩
    · simp [peekFront, hh, hb, ← hx]
    · simp only [popFront, hh, put_node, set_same, hb, if_true, ← hx]
      repeat' split
      all_goals rfl
    · intro y c
      simp only [pushFront, hh, put_node, set_same]
      by_cases h0 : (d.mem.node h).start = 0
      · simp [h0]
      · have hb2 : inBuf ((d.mem.node h).start - 1) = true := by simp [inBuf]; omega
        simp [h0, hb2]

/-- Pushing at the end that knows the deque is empty. -/
theorem pushFront_empty {d : Deque T} (hh : d.head = none) (hl : Live d.mem []) (v : T) :
    (pushFront d v none).2 = .unit ∧ (∃ ns, Rep (pushFront d v none).1 [v] ns) ∧ EndsNil (pushFront d v none).1 := by
  have r : Rep (⟨d.mem, none, none⟩ : Deque T) [] [] := ⟨hl, rfl, rfl, trivial, by simp, by simp⟩
  have h1 := pushFront_rep r v none
  have h2 := pushFront_ends r ⟨fun _ h => (by cases h), fun _ h => (by cases h)⟩ v
  have e : pushFront d v none = pushFront (⟨d.mem, none, none⟩ : Deque T) v none := by simp [pushFront, hh]
  rw [e]
  exact ⟨h1.1, h1.2, h2⟩

theorem pushBack_empty {d : Deque T} (hh : d.tail = none) (hl : Live d.mem []) (v : T) :
    (pushBack d v none).2 = .unit ∧ (∃ ns, Rep (pushBack d v none).1 [v] ns) ∧ EndsNil (pushBack d v none).1 := by
  have r : Rep (⟨d.mem, none, none⟩ : Deque T) [] [] := ⟨hl, rfl, rfl, trivial, by simp, by simp⟩
  have h1 := pushBack_rep r v none
  have h2 := pushBack_ends r ⟨fun _ h => (by cases h), fun _ h => (by cases h)⟩ v
  have e : pushBack d v none = pushBack (⟨d.mem, none, none⟩ : Deque T) v none := by simp [pushBack, hh]
  rw [e]
  exact ⟨h1.1, h1.2, h2⟩

/-- What is known of the deque, by which ends know. -/
def RepE (d : Deque T) (l : List T) : Ends → Prop
  | .both => (∃ ns, Rep d l ns) ∧ EndsNil d
  | .front => l = [] ∧ d.head = none ∧ Live d.mem []
  | .back => l = [] ∧ d.tail = none ∧ Live d.mem []

theorem step_rep {d : Deque T} {l : List T} {e : Ends} (r : RepE d l e) (op : Op T) (hf : Fresh op)
    (h1 : e = .front → atFront op) (h2 : e = .back → ¬ atFront op) :
    (step d op).2 = (specStep l op).2 ∧ RepE (step d op).1 (specStep l op).1 (e.after l op) := by
  cases e with
  | both =>
    obtain ⟨⟨ns, r⟩, en⟩ := r
    cases op with
    | pushFront v c =>
      cases (show c = none from hf)
      have := pushFront_rep r v none
      exact ⟨this.1, this.2, pushFront_ends r en v⟩
    | pushBack v c =>
      cases (show c = none from hf)
      have := pushBack_rep r v none
      exact ⟨this.1, this.2, pushBack_ends r en v⟩
    | popFront =>
      by_cases hl : l.length = 1
      · obtain ⟨x, rfl⟩ := List.length_eq_one_iff.1 hl
        have := popFront_last r en
        exact ⟨this.1, rfl, this.2.1, this.2.2.1⟩
      · have := popFront_rep r hl
        refine ⟨this.1, ?_⟩
        simp only [Ends.after, hl, if_false]
        exact ⟨this.2, popFront_ends r en⟩
    | popBack =>
      by_cases hl : l.length = 1
      · obtain ⟨x, rfl⟩ := List.length_eq_one_iff.1 hl
        have := popBack_last r en
        exact ⟨this.1, rfl, this.2.1, this.2.2.1⟩
      · have := popBack_rep r hl
        refine ⟨this.1, ?_⟩
        simp only [Ends.after, hl, if_false]
        exact ⟨this.2, popBack_ends r en⟩
    | peekFront =>
      have := peekFront_rep r
      exact ⟨by simp [step, this, specStep], by simp only [step, this]; exact ⟨⟨ns, r⟩, en⟩⟩
    | peekBack =>
      have := peekBack_rep r
      exact ⟨by simp [step, this, specStep], by simp only [step, this]; exact ⟨⟨ns, r⟩, en⟩⟩
  | front =>
    obtain ⟨rfl, hh, hlv⟩ := r
    have hop := h1 rfl
    cases op with
    | pushFront v c =>
      cases (show c = none from hf)
      have := pushFront_empty hh hlv v
      exact ⟨this.1, this.2⟩
    | popFront => exact ⟨by simp [step, popFront, hh, specStep, first], by simp [step, popFront, hh, specStep, Ends.after, RepE, hlv]⟩
    | peekFront => exact ⟨by simp [step, peekFront, hh, specStep, first], by simp [step, peekFront, hh, specStep, Ends.after, RepE, hlv]⟩
    | pushBack v c => exact hop.elim
    | popBack => exact hop.elim
    | peekBack => exact hop.elim
  | back =>
    obtain ⟨rfl, hh, hlv⟩ := r
    have hop := h2 rfl
    cases op with
    | pushBack v c =>
      cases (show c = none from hf)
      have := pushBack_empty hh hlv v
      exact ⟨this.1, this.2⟩
    | popBack => exact ⟨by simp [step, popBack, hh, specStep, first], by simp [step, popBack, hh, specStep, Ends.after, RepE, hlv]⟩
    | peekBack => exact ⟨by simp [step, peekBack, hh, specStep, first], by simp [step, peekBack, hh, specStep, Ends.after, RepE, hlv]⟩
    | pushFront v c => exact absurd trivial hop
    | popFront => exact absurd trivial hop
    | peekFront => exact absurd trivial hop

/-- The deque after a history. -/
def final (d : Deque T) : List (Op T) → Deque T
  | [] => d
  | op :: ops => final (step d op).1 ops

theorem run_rep {d : Deque T} {l : List T} {e : Ends} (r : RepE d l e) (ops : List (Op T)) (hf : ∀ op ∈ ops, Fresh op)
    (h : SafeEnds e l ops) : run d ops = specRun l ops ∧ RepE (final d ops) (specEnd l ops) (endsAfter e l ops) := by
  induction ops generalizing d l e with
  | nil => exact ⟨rfl, r⟩
  | cons op ops ih =>
    obtain ⟨h1, h2, h3⟩ := h
    obtain ⟨e1, r1⟩ := step_rep r op (hf op (by simp)) h1 h2
    obtain ⟨e2, r2⟩ := ih r1 (fun o ho => hf o (by simp [ho])) h3
    exact ⟨by simp only [run, specRun, e1, e2], r2⟩

theorem run_append (d : Deque T) (xs ys : List (Op T)) : run d (xs ++ ys) = run d xs ++ run (final d xs) ys := by
  induction xs generalizing d with
  | nil => rfl
  | cons x xs ih => simp [run, final, ih]

theorem new_rep : RepE (new : Deque T) [] .both := ⟨⟨[], Deque.new_rep⟩, ⟨fun _ h => (by cases h), fun _ h => (by cases h)⟩⟩

end Verif.DequeEnd
