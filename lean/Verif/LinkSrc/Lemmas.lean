import Verif.LinkSrc.Spec
import Verif.ListExact.Props
import Verif.DequeEnd.Props
/-!
# Invariants for C132
-/
set_option linter.unusedSectionVars false
namespace Verif.LinkSrc
open Verif.Linked

variable {T : Type} [Inhabited T]

theorem sourced_nil {Op : Type} (given : List Op → List T) (extra : List T) : Sourced given [] [] extra := by
  intro i r h
  simp at h

/-- One call, then the rest. -/
theorem sourced_cons {Op : Type} {given : List Op → List T} {op : Op} {ops : List Op} {r : Res T} {rs : List (Res T)}
    {extra new : List T} (hg : ∀ os v, (v ∈ new ∨ v ∈ given os) → v ∈ given (op :: os))
    (hr : ∀ v ∈ shows r, v ∈ extra) (h : Sourced given ops rs (new ++ extra)) :
    Sourced given (op :: ops) (r :: rs) extra := by
  intro i x hx v hv
  cases i with
  | zero =>
    simp only [List.getElem?_cons_zero, Option.some.injEq] at hx
    subst hx
    exact .inr (hr v hv)
  | succ i =>
    simp only [List.getElem?_cons_succ] at hx
    rw [List.take_succ_cons]
    rcases h i x hx v hv with h | h
    · exact .inl (hg _ v (.inr h))
    · rcases List.mem_append.1 h with h | h
      · exact .inl (hg _ v (.inl h))
      · exact .inr h

/-! ## Queue -/

/-- All nodes there are hold elements of `E`, and every pointer leads to one. -/
structure QInv (q : Queue.Queue T) (E : List T) : Prop where
  data : ∀ a, a < q.mem.brk → (q.mem.node a).data ∈ E
  next : ∀ a, a < q.mem.brk → ∀ b, (q.mem.node a).next = some b → b < q.mem.brk
  pool : ∀ a ∈ q.mem.pool, a < q.mem.brk
  head : ∀ a, q.head = some a → a < q.mem.brk
  tail : ∀ a, q.tail = some a → a < q.mem.brk

/-- What `pool.Get` does to the allocated nodes. -/
theorem get_lt {N : Type} [Inhabited N] (m : Mem N) (c : Option Nat) (hp : ∀ a ∈ m.pool, a < m.brk) :
    m.brk ≤ (m.get c).2.brk ∧ (m.get c).1 < (m.get c).2.brk ∧ (∀ a ∈ (m.get c).2.pool, a < (m.get c).2.brk) ∧
    (∀ a, a < (m.get c).2.brk → a ≠ (m.get c).1 → a < m.brk ∧ (m.get c).2.node a = m.node a) ∧
    ((m.get c).1 < m.brk ∧ (m.get c).2.node (m.get c).1 = m.node (m.get c).1 ∨ (m.get c).2.node (m.get c).1 = default) := by
  unfold Mem.get
  split
  · rename_i a ha
    obtain ⟨i, -, hai⟩ := Option.bind_eq_some_iff.1 ha
    have hmem : a ∈ m.pool := List.mem_of_getElem? hai
    exact ⟨le_refl _, hp a hmem, fun b hb => hp b (List.mem_of_mem_erase hb), fun b hb _ => ⟨hb, rfl⟩, .inl ⟨hp a hmem, rfl⟩⟩
  · refine ⟨by simp, by simp, fun b hb => by have := hp b hb; simp; omega, fun b hb hne => ?_, .inr (by simp)⟩
    simp only at hb hne
    exact ⟨by omega, by simp [hne]⟩

theorem queue_step {q : Queue.Queue T} {E : List T} (h : QInv q E) (op : Queue.Op T) :
    (∀ v ∈ shows (Queue.step q op).2, v ∈ E) ∧ QInv (Queue.step q op).1 (queueIn [op] ++ E) := by
  cases op with
  | enqueue v c =>
    obtain ⟨h1, h2, h3, h4, h5⟩ := get_lt q.mem c h.pool
    simp only [Queue.step, Queue.enqueue, queueIn, List.cons_append, List.nil_append]
    generalize hgc : q.mem.get c = g at h1 h2 h3 h4 h5
    obtain ⟨n, m⟩ := g
    simp only at h1 h2 h3 h4 h5 ⊢
    have hd : ∀ a, a < m.brk → ((m.setData n v).node a).data ∈ v :: E := by
      intro a ha
      by_cases e : a = n
      · subst e; simp [setData_same]
      · rw [setData_ne _ _ e, (h4 a ha e).2]
        exact List.mem_cons_of_mem _ (h.data a (h4 a ha e).1)
    have hn : ∀ a, a < m.brk → ∀ b, ((m.setData n v).node a).next = some b → b < m.brk := by
      intro a ha b hb
      rw [setData_next] at hb
      by_cases e : a = n
      · subst e
        rcases h5 with ⟨h5, h6⟩ | h5
        · rw [h6] at hb; exact lt_of_lt_of_le (h.next a h5 b hb) h1
        · rw [h5] at hb; cases hb
      · rw [(h4 a ha e).2] at hb
        exact lt_of_lt_of_le (h.next a (h4 a ha e).1 b hb) h1
    cases hh : q.head with
    | none =>
      refine ⟨by simp [shows], ⟨hd, hn, h3, ?_, ?_⟩⟩ <;>
      · intro a ha
        obtain rfl : n = a := by simpa using ha
        exact h2
    | some x =>
      cases ht : q.tail with
      | none =>
        refine ⟨by simp [shows], ⟨hd, hn, h3, ?_, ?_⟩⟩
        · intro a ha
          exact lt_of_lt_of_le (h.head a (by rw [hh]; simpa using ha)) h1
        · intro a ha
          cases ha
      | some t =>
        have htl := lt_of_lt_of_le (h.tail t ht) h1
        refine ⟨by simp [shows], ⟨?_, ?_, h3, ?_, ?_⟩⟩
        · intro a ha
          rw [setNext_data]
          exact hd a ha
        · intro a ha b hb
          by_cases e : a = t
          · subst e
            rw [setNext_same] at hb
            obtain rfl : n = b := by simpa using hb
            exact h2
          · rw [setNext_ne _ _ e] at hb
            exact hn a ha b hb
        · intro a ha
          exact lt_of_lt_of_le (h.head a (by rw [hh]; simpa using ha)) h1
        · intro a ha
          obtain rfl : n = a := by simpa using ha
          exact h2
  | dequeue =>
    simp only [Queue.step, Queue.dequeue, queueIn, List.nil_append]
    cases hh : q.head with
    | none => exact ⟨by simp [shows], h⟩
    | some a =>
      have ha := h.head a hh
      have hp : ∀ b ∈ (q.mem.put a).pool, b < (q.mem.put a).brk := by
        intro b hb
        rcases List.mem_cons.1 hb with rfl | hb
        · exact ha
        · exact h.pool b hb
      simp only [put_node]
      cases hn : (q.mem.node a).next with
      | none => exact ⟨by simp [shows], ⟨h.data, h.next, hp, fun b hb => (by cases hb), h.tail⟩⟩
      | some b =>
        refine ⟨?_, ⟨h.data, h.next, hp, ?_, h.tail⟩⟩
        · simp only [shows, List.mem_singleton, forall_eq]
          exact h.data b (h.next a ha b hn)
        · intro c hc
          obtain rfl : b = c := by simpa using hc
          exact h.next a ha b hn
  | peek =>
    simp only [Queue.step, Queue.peek, queueIn, List.nil_append]
    cases hh : q.head with
    | none => exact ⟨by simp [shows], h⟩
    | some a =>
      refine ⟨?_, h⟩
      simp only [shows, List.mem_singleton, forall_eq]
      exact h.data a (h.head a hh)
  | isEmpty => exact ⟨by simp [Queue.step, Queue.isEmpty, shows], by simpa [Queue.step, Queue.isEmpty, queueIn] using h⟩

theorem queue_run {q : Queue.Queue T} {E : List T} (h : QInv q E) (ops : List (Queue.Op T)) :
    Sourced queueIn ops (Queue.run q ops) E := by
  induction ops generalizing q E with
  | nil => exact sourced_nil _ _
  | cons op ops ih =>
    obtain ⟨h1, h2⟩ := queue_step h op
    refine sourced_cons ?_ h1 (ih h2)
    intro os v hv
    cases op <;> simpa [queueIn] using hv

theorem queue_new : QInv (Queue.new : Queue.Queue T) [] :=
  ⟨fun a h => absurd h (Nat.not_lt_zero _), fun a h => absurd h (Nat.not_lt_zero _), fun a h => (by cases h),
    fun a h => (by cases h), fun a h => (by cases h)⟩

/-! ## Stack -/

theorem stack_run (l E : List T) (hl : ∀ v ∈ l, v ∈ E) (ops : List (Stack.Op T)) :
    Sourced stackIn ops (Stack.shownRun l ops) E := by
  induction ops generalizing l E with
  | nil => exact sourced_nil _ _
  | cons op ops ih =>
    refine sourced_cons (new := stackIn [op]) ?_ ?_ (ih _ _ ?_)
    · intro os v hv
      cases op <;> simpa [stackIn] using hv
    · cases op with
      | push v c => simp [Stack.shownStep, Stack.specStep, shows]
      | pop =>
        rcases l with _ | ⟨x, _ | ⟨y, l⟩⟩
        · simp [Stack.shownStep, Stack.specStep, shows]
        · simp [Stack.shownStep, shows]
        · simp only [Stack.shownStep, shows, List.mem_singleton, forall_eq]
          exact hl y (by simp)
      | peek =>
        rcases l with _ | ⟨x, l⟩
        · simp [Stack.shownStep, Stack.specStep, shows]
        · simp only [Stack.shownStep, Stack.specStep, shows, List.mem_singleton, forall_eq]
          exact hl x (by simp)
      | len => simp [Stack.shownStep, Stack.specStep, shows]
    · cases op with
      | push v c =>
        intro w hw
        simp only [Stack.specStep, List.mem_cons] at hw
        rcases hw with rfl | hw
        · simp [stackIn]
        · exact List.mem_append_right _ (hl w hw)
      | pop =>
        rcases l with _ | ⟨x, l⟩
        · simp [Stack.specStep]
        · intro w hw
          exact List.mem_append_right _ (hl w (List.mem_cons_of_mem _ hw))
      | peek => exact fun w hw => List.mem_append_right _ (hl w hw)
      | len => exact fun w hw => List.mem_append_right _ (hl w hw)

/-! ## List -/

open Verif.ListExact in
theorem take_elems (x : X T) (c : Option Nat) : (take x c).2.elems = x.elems := by
  unfold take
  repeat' split
  all_goals rfl

open Verif.ListExact in
theorem behind_elems (x : X T) (v w : T) (h : w ∈ (behind x v).elems) : w = v ∨ w ∈ x.elems := by
  unfold behind at h
  split at h
  · exact .inr h
  · simp only [List.mem_append, List.mem_singleton] at h
    rcases h with h | h
    · exact .inr (List.mem_of_mem_take h)
    · exact .inl h
  · exact .inr h

theorem elem_mem (l : List T) (i : Int) : ∀ v ∈ shows (LList.elem l i), v ∈ l := by
  intro v hv
  unfold LList.elem at hv
  split at hv
  · split at hv
    · rename_i x hx
      simp only [shows, List.mem_singleton] at hv
      subst hv
      exact List.mem_of_getElem? hx
    · simp [shows] at hv
  · simp [shows] at hv

theorem visited_mem (f : List T → Bool) (l acc : List T) : ∀ v ∈ LList.visited f acc l, v ∈ acc ∨ v ∈ l := by
  induction l generalizing acc with
  | nil => intro v hv; exact .inl hv
  | cons x l ih =>
    intro v hv
    unfold LList.visited at hv
    split at hv
    · rcases ih _ v hv with h | h
      · simp only [List.mem_append, List.mem_singleton] at h
        rcases h with h | rfl
        · exact .inl h
        · exact .inr (by simp)
      · exact .inr (List.mem_cons_of_mem _ h)
    · simp only [List.mem_append, List.mem_singleton] at hv
      rcases hv with h | rfl
      · exact .inl h
      · exact .inr (by simp)

open Verif.ListExact in
theorem list_step (x : X T) (E : List T) (hx : ∀ v ∈ x.elems, v ∈ E) (op : LList.Op T) :
    (∀ v ∈ shows (exactStep x op).2, v ∈ E) ∧ ∀ v ∈ (exactStep x op).1.elems, v ∈ listIn [op] ++ E := by
  cases op with
  | append v c =>
    simp only [exactStep, listIn, List.cons_append, List.nil_append]
    split
    · exact ⟨by simp [shows], by simp⟩
    · refine ⟨by simp [shows], fun w hw => ?_⟩
      rcases behind_elems _ _ _ hw with rfl | h
      · simp
      · have h : w ∈ (take x c).2.elems := h
        rw [take_elems] at h
        exact List.mem_cons_of_mem _ (hx w h)
  | insert i v c =>
    simp only [exactStep, listIn, List.cons_append, List.nil_append]
    have hold : ∀ w ∈ (take x c).2.elems, w ∈ v :: E := by
      intro w hw
      rw [take_elems] at hw
      exact List.mem_cons_of_mem _ (hx w hw)
    split
    · split
      · exact ⟨by simp [shows], hold⟩
      · refine ⟨by simp [shows], fun w hw => ?_⟩
        rcases behind_elems _ _ _ hw with rfl | h
        · simp
        · exact hold w h
    · split
      · refine ⟨by simp [shows], fun w hw => ?_⟩
        rcases List.eq_or_mem_of_mem_insertIdx hw with rfl | h
        · simp
        · exact List.mem_cons_of_mem _ (hx w h)
      · exact ⟨by simp [shows], hold⟩
  | remove i =>
    simp only [exactStep, listIn, List.nil_append]
    split
    · exact ⟨fun w hw => hx w (elem_mem _ _ w hw), fun w hw => hx w (List.mem_of_mem_eraseIdx hw)⟩
    · exact ⟨by simp [shows], hx⟩
  | «at» i => exact ⟨fun w hw => hx w (elem_mem _ _ w hw), fun w hw => by simpa [listIn] using hx w hw⟩
  | iterate f =>
    refine ⟨fun w hw => ?_, fun w hw => by simpa [listIn] using hx w hw⟩
    rcases visited_mem f x.elems [] w hw with h | h
    · simp at h
    · exact hx w h
  | len => exact ⟨by simp [exactStep, shows], fun w hw => by simpa [listIn] using hx w hw⟩

open Verif.ListExact in
theorem list_run (x : X T) (E : List T) (hx : ∀ v ∈ x.elems, v ∈ E) (ops : List (LList.Op T)) :
    Sourced listIn ops (exactRun x ops) E := by
  induction ops generalizing x E with
  | nil => exact sourced_nil _ _
  | cons op ops ih =>
    obtain ⟨h1, h2⟩ := list_step x E hx op
    refine sourced_cons ?_ h1 (ih _ _ h2)
    intro os v hv
    cases op <;> simpa [listIn] using hv

/-! ## Deque -/

/-- All cells of all nodes hold elements of `E`. -/
def DInv (d : Deque.Deque T) (E : List T) : Prop := ∀ a i, (d.mem.node a).data i ∈ E

theorem set_cells {m : Mem (Deque.DNode T)} {E : List T} (h : ∀ a i, (m.node a).data i ∈ E) (a : Nat) (n : Deque.DNode T)
    (hn : ∀ i, n.data i ∈ E) : ∀ b i, ((m.set a n).node b).data i ∈ E := by
  intro b i
  by_cases e : b = a
  · subst e; rw [set_same]; exact hn i
  · rw [set_ne _ _ e]; exact h b i

theorem upd_cells {f : Int → T} {E : List T} (h : ∀ i, f i ∈ E) (j : Int) (v : T) (hv : v ∈ E) : ∀ i, Deque.upd f j v i ∈ E := by
  intro i
  unfold Deque.upd
  split
  · exact hv
  · exact h i

theorem get_cells {m : Mem (Deque.DNode T)} {E : List T} (h : ∀ a i, (m.node a).data i ∈ E) (hz : (default : T) ∈ E)
    (c : Option Nat) : ∀ a i, ((m.get c).2.node a).data i ∈ E := by
  intro a i
  unfold Mem.get
  split
  · exact h a i
  · simp only
    split
    · exact hz
    · exact h a i

theorem deque_step {d : Deque.Deque T} {E : List T} (h : DInv d E) (hz : (default : T) ∈ E) (op : Deque.Op T) :
    (∀ v ∈ shows (Deque.step d op).2, v ∈ E) ∧ DInv (Deque.step d op).1 (dequeIn [op] ++ E) := by
  cases op with
  | pushFront v c =>
    have h' : ∀ a i, (d.mem.node a).data i ∈ v :: E := fun a i => List.mem_cons_of_mem _ (h a i)
    have hg := get_cells h' (List.mem_cons_of_mem _ hz) c
    have hv : v ∈ v :: E := by simp
    simp only [Deque.step, Deque.pushFront, dequeIn, List.cons_append, List.nil_append]
    split
    · exact ⟨by simp [shows], set_cells hg _ _ (upd_cells (hg _) _ _ hv)⟩
    · split
      · rename_i x _ _
        refine ⟨by simp [shows], ?_⟩
        have h1 := set_cells hg (d.mem.get c).1 { (d.mem.get c).2.node (d.mem.get c).1 with
          data := Deque.upd ((d.mem.get c).2.node (d.mem.get c).1).data (Deque.nodeBufferSize - 1) v,
          start := Deque.nodeBufferSize - 1, fin := Deque.nodeBufferSize, next := some x } (upd_cells (hg _) _ _ hv)
        exact set_cells h1 _ _ (h1 _)
      · rename_i x _ _
        have h1 := set_cells h' x { d.mem.node x with start := (d.mem.node x).start - 1 } (h' _)
        split
        · exact ⟨by simp [shows], set_cells h1 _ _ (upd_cells (h1 _) _ _ hv)⟩
        · exact ⟨by simp [shows], h1⟩
  | pushBack v c =>
    have h' : ∀ a i, (d.mem.node a).data i ∈ v :: E := fun a i => List.mem_cons_of_mem _ (h a i)
    have hg := get_cells h' (List.mem_cons_of_mem _ hz) c
    have hv : v ∈ v :: E := by simp
    simp only [Deque.step, Deque.pushBack, dequeIn, List.cons_append, List.nil_append]
    split
    · exact ⟨by simp [shows], set_cells hg _ _ (upd_cells (hg _) _ _ hv)⟩
    · split
      · rename_i x _ _
        refine ⟨by simp [shows], ?_⟩
        have h1 := set_cells hg (d.mem.get c).1 { (d.mem.get c).2.node (d.mem.get c).1 with
          data := Deque.upd ((d.mem.get c).2.node (d.mem.get c).1).data 0 v,
          start := 0, fin := 1, prev := some x } (upd_cells (hg _) _ _ hv)
        exact set_cells h1 _ _ (h1 _)
      · split
        · exact ⟨by simp [shows], set_cells h' _ _ (upd_cells (h' _) _ _ hv)⟩
        · exact ⟨by simp [shows], h'⟩
  | popFront =>
    simp only [Deque.step, Deque.popFront, dequeIn, List.nil_append]
    split
    · exact ⟨by simp [shows], h⟩
    · rename_i x _
      have h1 := set_cells h x { d.mem.node x with start := (d.mem.node x).start + 1 } (h _)
      split
      · split
        · split
          · exact ⟨by simpa [shows] using h _ _, h1⟩
          · exact ⟨by simpa [shows] using h _ _, set_cells (m := Mem.put _ x) h1 _ _ (h1 _)⟩
        · exact ⟨by simpa [shows] using h _ _, h1⟩
      · exact ⟨by simp [shows], h⟩
  | popBack =>
    simp only [Deque.step, Deque.popBack, dequeIn, List.nil_append]
    split
    · exact ⟨by simp [shows], h⟩
    · rename_i x _
      have h1 := set_cells h x { d.mem.node x with fin := (d.mem.node x).fin - 1 } (h _)
      split
      · split
        · split
          · exact ⟨by simpa [shows] using h _ _, h1⟩
          · exact ⟨by simpa [shows] using h _ _, set_cells (m := Mem.put _ x) h1 _ _ (h1 _)⟩
        · exact ⟨by simpa [shows] using h _ _, h1⟩
      · exact ⟨by simp [shows], h1⟩
  | peekFront =>
    simp only [Deque.step, Deque.peekFront, dequeIn, List.nil_append]
    split
    · exact ⟨by simp [shows], h⟩
    · split
      · exact ⟨by simpa [shows] using h _ _, h⟩
      · exact ⟨by simp [shows], h⟩
  | peekBack =>
    simp only [Deque.step, Deque.peekBack, dequeIn, List.nil_append]
    split
    · exact ⟨by simp [shows], h⟩
    · split
      · exact ⟨by simpa [shows] using h _ _, h⟩
      · exact ⟨by simp [shows], h⟩

theorem deque_run {d : Deque.Deque T} {E : List T} (h : DInv d E) (hz : (default : T) ∈ E) (ops : List (Deque.Op T)) :
    Sourced dequeIn ops (Deque.run d ops) E := by
  induction ops generalizing d E with
  | nil => exact sourced_nil _ _
  | cons op ops ih =>
    obtain ⟨h1, h2⟩ := deque_step h hz op
    refine sourced_cons ?_ h1 (ih h2 (List.mem_append_right _ hz))
    intro os v hv
    cases op <;> simpa [dequeIn] using hv

/-! ## Draining a deque at the wrong end -/

theorem inBuf_true {i : Int} (h0 : 0 ≤ i) (h1 : i < 64) : Deque.inBuf i = true := by
  simp [Deque.inBuf, Deque.nodeBufferSize, h0, h1]

theorem inBuf_false {i : Int} (h : i < 0 ∨ 64 ≤ i) : Deque.inBuf i = false := by
  rw [← Bool.not_eq_true]
  intro hb
  simp only [Deque.inBuf, Bool.and_eq_true, decide_eq_true_eq] at hb
  have h1 : i < 64 := hb.2
  omega

open Verif.Linked.Deque in
/-- A head whose node ends before it starts gives out the rest of its cells, then panics for ever. -/
theorem drain_front (k m : Nat) (d : Deque T) (h : Nat) (hh : d.head = some h) (h0 : 0 ≤ (d.mem.node h).start)
    (h1 : (d.mem.node h).fin ≤ (d.mem.node h).start) (h2 : (d.mem.node h).start + k = 64) :
    run d (List.replicate m .popFront) =
      ((seg (d.mem.node h).data (d.mem.node h).start k).map .val).take m ++ List.replicate (m - k) .panic := by
  induction m generalizing d k with
  | zero => simp [run]
  | succ m ih =>
    rw [List.replicate_succ, run]
    cases k with
    | zero =>
      have hb : inBuf (d.mem.node h).start = false := inBuf_false (by omega)
      have hs : step d .popFront = (d, .panic) := by simp [step, popFront, hh, hb]
      rw [hs, ih 0 d hh h0 h1 h2]
      simp [seg, List.replicate_succ]
    | succ k =>
      have hb : inBuf (d.mem.node h).start = true := inBuf_true (by omega) (by omega)
      have hne : (d.mem.node h).start + 1 ≠ (d.mem.node h).fin := by omega
      have hs : step d .popFront = (⟨d.mem.set h { d.mem.node h with start := (d.mem.node h).start + 1 }, d.head, d.tail⟩,
          .val ((d.mem.node h).data (d.mem.node h).start)) := by
        simp [step, popFront, hh, hb, hne]
      have := ih k ⟨d.mem.set h { d.mem.node h with start := (d.mem.node h).start + 1 }, d.head, d.tail⟩ hh
        (by rw [set_same]; show 0 ≤ (d.mem.node h).start + 1; omega)
        (by rw [set_same]; show (d.mem.node h).fin ≤ (d.mem.node h).start + 1; omega)
        (by rw [set_same]; show (d.mem.node h).start + 1 + k = 64; push_cast at h2; omega)
      rw [hs, this]
      simp [seg]

open Verif.Linked.Deque in
/-- `k` cells of `f` from index `e` down. -/
def segDown (f : Int → T) (e : Int) : Nat → List T
  | 0 => []
  | k + 1 => f e :: segDown f (e - 1) k

open Verif.Linked.Deque in
theorem drain_back (k m : Nat) (d : Deque T) (t : Nat) (ht : d.tail = some t) (h0 : (d.mem.node t).fin ≤ 64)
    (h1 : (d.mem.node t).fin ≤ (d.mem.node t).start) (h2 : (d.mem.node t).fin = k ∨ k = 0 ∧ (d.mem.node t).fin < 0) :
    run d (List.replicate m .popBack) =
      ((segDown (d.mem.node t).data ((d.mem.node t).fin - 1) k).map .val).take m ++ List.replicate (m - k) .panic := by
  induction m generalizing d k with
  | zero => simp [run]
  | succ m ih =>
    rw [List.replicate_succ, run]
    cases k with
    | zero =>
      have hb : inBuf ((d.mem.node t).fin - 1) = false := inBuf_false (by omega)
      have hs : step d .popBack = (⟨d.mem.set t { d.mem.node t with fin := (d.mem.node t).fin - 1 }, d.head, d.tail⟩, .panic) := by
        simp [step, popBack, ht, hb]
      have := ih 0 ⟨d.mem.set t { d.mem.node t with fin := (d.mem.node t).fin - 1 }, d.head, d.tail⟩ ht
        (by rw [set_same]; show (d.mem.node t).fin - 1 ≤ 64; omega)
        (by rw [set_same]; show (d.mem.node t).fin - 1 ≤ (d.mem.node t).start; omega)
        (by rw [set_same]; show (d.mem.node t).fin - 1 = (0 : Nat) ∨ (0 = 0 ∧ (d.mem.node t).fin - 1 < 0); omega)
      rw [hs, this]
      simp [segDown, List.replicate_succ]
    | succ k =>
      have hb : inBuf ((d.mem.node t).fin - 1) = true := inBuf_true (by omega) (by omega)
      have hne : (d.mem.node t).start ≠ (d.mem.node t).fin - 1 := by omega
      have hs : step d .popBack = (⟨d.mem.set t { d.mem.node t with fin := (d.mem.node t).fin - 1 }, d.head, d.tail⟩,
          .val ((d.mem.node t).data ((d.mem.node t).fin - 1))) := by
        simp [step, popBack, ht, hb, hne]
      have := ih k ⟨d.mem.set t { d.mem.node t with fin := (d.mem.node t).fin - 1 }, d.head, d.tail⟩ ht
        (by rw [set_same]; show (d.mem.node t).fin - 1 ≤ 64; omega)
        (by rw [set_same]; show (d.mem.node t).fin - 1 ≤ (d.mem.node t).start; omega)
        (by rw [set_same]; show (d.mem.node t).fin - 1 = (k : Nat) ∨ (k = 0 ∧ (d.mem.node t).fin - 1 < 0); omega)
      rw [hs, this]
      simp [segDown]

theorem seg_length (f : Int → T) (s : Int) (k : Nat) : (Deque.seg f s k).length = k := by
  induction k generalizing s with
  | zero => rfl
  | succ k ih => simp [Deque.seg, ih]

theorem segDown_length (f : Int → T) (s : Int) (k : Nat) : (segDown f s k).length = k := by
  induction k generalizing s with
  | zero => rfl
  | succ k ih => simp [segDown, ih]

open Verif.Linked.Deque Verif.DequeEnd in
/-- A deque of one element is one node with one cell in use. -/
theorem one_node {d : Deque T} {x : T} {ns : List Nat} (r : Rep d [x] ns) : ∃ h, d.head = some h ∧ d.tail = some h ∧
    0 ≤ (d.mem.node h).start ∧ (d.mem.node h).fin = (d.mem.node h).start + 1 ∧ (d.mem.node h).fin ≤ 64 ∧
    (d.mem.node h).data (d.mem.node h).start = x := by
  cases ns with
  | nil => have := r.data; simp at this
  | cons h ns =>
    have hok := r.ok h (by simp)
    have hok1 := hok.lo
    have hok2 := hok.ne
    have hok3 := hok.hi
    have hdata := r.data
    rw [List.flatMap_cons, contents_front hok.ne] at hdata
    have hlen := congrArg List.length hdata
    have hns : ns = [] := by
      cases ns with
      | nil => rfl
      | cons b ns =>
        have hb := (r.ok b (by simp)).ne
        rw [List.flatMap_cons, contents_front hb] at hlen
        simp at hlen
    subst hns
    have hfin : (d.mem.node h).fin = (d.mem.node h).start + 1 := by
      by_contra hne
      have : ∃ k, ((d.mem.node h).fin - ((d.mem.node h).start + 1)).toNat = k + 1 := ⟨_, (Nat.succ_pred (by omega)).symm⟩
      obtain ⟨k, hk⟩ := this
      rw [hk] at hlen
      simp [seg] at hlen
    refine ⟨h, by simpa using r.head, by simpa using r.tail, hok1, hfin, hok3, ?_⟩
    simp only [List.cons_append] at hdata
    exact (List.cons.inj hdata).1.symm

open Verif.Linked.Deque Verif.DequeEnd in
/-- Taking the last element at the back and then everything at the front. -/
theorem popBack_drain {d : Deque T} {x : T} {ns : List Nat} (r : Rep d [x] ns) (e : EndsNil d) :
    ∃ vs : List T, vs.head? = some x ∧ vs.length ≤ 64 ∧ ∀ m, run d (.popBack :: List.replicate m .popFront) =
      .val x :: (vs.map .val).take m ++ List.replicate (m - vs.length) .panic := by
  obtain ⟨h, hh, ht, h0, h1, h2, hx⟩ := one_node r
  have hpv := e.prev h hh
  have hb : inBuf (d.mem.node h).start = true := inBuf_true (by omega) (by omega)
  have hs : (d.mem.node h).fin - 1 = (d.mem.node h).start := by omega
  have hp : step d .popBack = (⟨(d.mem.set h { d.mem.node h with fin := (d.mem.node h).fin - 1 }).put h, d.head, none⟩,
      .val x) := by
    simp [step, popBack, ht, hs, hb, hpv, hx]
  obtain ⟨k, hk⟩ : ∃ k : Nat, (d.mem.node h).start + (k + 1 : Nat) = 64 := ⟨(63 - (d.mem.node h).start).toNat, by omega⟩
  refine ⟨seg (d.mem.node h).data (d.mem.node h).start (k + 1), by simp [seg, hx], by rw [seg_length]; omega, fun m => ?_⟩
  have := drain_front (k + 1) m ⟨(d.mem.set h { d.mem.node h with fin := (d.mem.node h).fin - 1 }).put h, d.head, none⟩ h hh
    (by rw [put_node, set_same]; exact h0)
    (by rw [put_node, set_same]; show (d.mem.node h).fin - 1 ≤ (d.mem.node h).start; omega)
    (by rw [put_node, set_same]; exact hk)
  rw [run, hp, seg_length, this]
  simp

open Verif.Linked.Deque Verif.DequeEnd in
/-- Taking the last element at the front and then everything at the back. -/
theorem popFront_drain {d : Deque T} {x : T} {ns : List Nat} (r : Rep d [x] ns) (e : EndsNil d) :
    ∃ vs : List T, vs.head? = some x ∧ vs.length ≤ 64 ∧ ∀ m, run d (.popFront :: List.replicate m .popBack) =
      .val x :: (vs.map .val).take m ++ List.replicate (m - vs.length) .panic := by
  obtain ⟨h, hh, ht, h0, h1, h2, hx⟩ := one_node r
  have hnx := e.next h ht
  have hb : inBuf (d.mem.node h).start = true := inBuf_true (by omega) (by omega)
  have hp : step d .popFront = (⟨(d.mem.set h { d.mem.node h with start := (d.mem.node h).start + 1 }).put h, none, d.tail⟩,
      .val x) := by
    simp [step, popFront, hh, hb, h1, hnx, hx]
  obtain ⟨k, hk⟩ : ∃ k : Nat, (d.mem.node h).fin = (k + 1 : Nat) := ⟨(d.mem.node h).start.toNat, by omega⟩
  refine ⟨segDown (d.mem.node h).data ((d.mem.node h).fin - 1) (k + 1), by simp [segDown, h1, hx],
    by rw [segDown_length]; omega, fun m => ?_⟩
  have := drain_back (k + 1) m ⟨(d.mem.set h { d.mem.node h with start := (d.mem.node h).start + 1 }).put h, none, d.tail⟩ h ht
    (by rw [put_node, set_same]; exact h2)
    (by rw [put_node, set_same]; show (d.mem.node h).fin ≤ (d.mem.node h).start + 1; omega)
    (by rw [put_node, set_same]; exact .inl hk)
  rw [run, hp, segDown_length, this]
  simp

end Verif.LinkSrc
