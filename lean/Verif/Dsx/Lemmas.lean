import Verif.Dsx.Spec
import Verif.Linked.Props
import Verif.Ring.Props
import Verif.SliceC.Props
/-!
# Lemmas for the interchangeability of implementations
-/
namespace Verif.Dsx
open Verif.Linked

variable {T : Type} [Inhabited T]

/-! ## The calls, one by one -/

section Calls
omit [Inhabited T]
@[simp] theorem SOp.linked_push (r : Rt) (v : T) : SOp.linked r (.push v) = .push v r.node := rfl
@[simp] theorem SOp.linked_pop (r : Rt) : SOp.linked r (.pop : SOp T) = .pop := rfl
@[simp] theorem SOp.linked_peek (r : Rt) : SOp.linked r (.peek : SOp T) = .peek := rfl
@[simp] theorem SOp.linked_len (r : Rt) : SOp.linked r (.len : SOp T) = .len := rfl
@[simp] theorem SOp.slice_push (r : Rt) (v : T) : SOp.slice r (.push v) = .push v r.grow := rfl
@[simp] theorem SOp.slice_pop (r : Rt) : SOp.slice r (.pop : SOp T) = .pop := rfl
@[simp] theorem SOp.slice_peek (r : Rt) : SOp.slice r (.peek : SOp T) = .peek := rfl
@[simp] theorem SOp.slice_len (r : Rt) : SOp.slice r (.len : SOp T) = .len := rfl
@[simp] theorem QOp.linked_enqueue (r : Rt) (v : T) : QOp.linked r (.enqueue v) = .enqueue v r.node := rfl
@[simp] theorem QOp.linked_dequeue (r : Rt) : QOp.linked r (.dequeue : QOp T) = .dequeue := rfl
@[simp] theorem QOp.linked_peek (r : Rt) : QOp.linked r (.peek : QOp T) = .peek := rfl
@[simp] theorem QOp.linked_isEmpty (r : Rt) : QOp.linked r (.isEmpty : QOp T) = .isEmpty := rfl
@[simp] theorem QOp.ring_enqueue (v : T) : QOp.ring (.enqueue v) = .enqueue v := rfl
@[simp] theorem QOp.ring_dequeue : QOp.ring (.dequeue : QOp T) = .dequeue := rfl
@[simp] theorem QOp.ring_peek : QOp.ring (.peek : QOp T) = .peek := rfl
@[simp] theorem QOp.ring_isEmpty : QOp.ring (.isEmpty : QOp T) = .isEmpty := rfl
@[simp] theorem LOp.linked_append (r : Rt) (v : T) : LOp.linked r (.append v) = .append v r.node := rfl
@[simp] theorem LOp.linked_insert (r : Rt) (i : Int) (v : T) : LOp.linked r (.insert i v) = .insert i v r.node := rfl
@[simp] theorem LOp.linked_remove (r : Rt) (i : Int) : LOp.linked r (.remove i : LOp T) = .remove i := rfl
@[simp] theorem LOp.linked_at (r : Rt) (i : Int) : LOp.linked r (.at i : LOp T) = .at i := rfl
@[simp] theorem LOp.linked_iterate (r : Rt) (f : List T → Bool) : LOp.linked r (.iterate f) = .iterate f := rfl
@[simp] theorem LOp.linked_len (r : Rt) : LOp.linked r (.len : LOp T) = .len := rfl
end Calls

theorem stack_from (ops : List (SOp T × Rt)) (l : List T) :
    Stack.shownRun l (ops.map fun o => o.1.linked o.2) =
      (SliceC.stackSpecRun l (ops.map fun o => o.1.slice o.2)).map ofSlice ↔ PopsBlind l (ops.map Prod.fst) := by
  induction ops generalizing l with
  | nil => simp [Stack.shownRun, SliceC.stackSpecRun, PopsBlind]
  | cons o ops ih =>
    obtain ⟨op, r⟩ := o
    cases op with
    | push v =>
      simp [Stack.shownRun, SliceC.stackSpecRun, PopsBlind, Stack.shownStep, Stack.specStep,
        SliceC.stackSpec, ofSlice, stackAfter, ih]
    | peek =>
      cases l <;> simp [Stack.shownRun, SliceC.stackSpecRun, PopsBlind, Stack.shownStep,
        Stack.specStep, SliceC.stackSpec, ofSlice, stackAfter, ih]
    | len =>
      cases l <;> simp [Stack.shownRun, SliceC.stackSpecRun, PopsBlind, Stack.shownStep,
        Stack.specStep, SliceC.stackSpec, ofSlice, stackAfter, ih]
    | pop =>
      rcases l with _ | ⟨x, _ | ⟨y, l⟩⟩
      · simp [Stack.shownRun, SliceC.stackSpecRun, PopsBlind, Stack.shownStep,
          Stack.specStep, SliceC.stackSpec, ofSlice, stackAfter, ih]
      · simp [Stack.shownRun, SliceC.stackSpecRun, PopsBlind, Stack.shownStep,
          SliceC.stackSpec, ofSlice]
      · simp [Stack.shownRun, SliceC.stackSpecRun, PopsBlind, Stack.shownStep,
          Stack.specStep, SliceC.stackSpec, ofSlice, stackAfter, ih]

omit [Inhabited T] in
theorem keeps_of_blind (ops : List (QOp T × Rt)) (l : List T) (h : DequeuesBlind l (ops.map Prod.fst)) :
    Queue.KeepsOne l (ops.map fun o => o.1.linked o.2) := by
  induction ops generalizing l with
  | nil => trivial
  | cons o ops ih =>
    obtain ⟨op, r⟩ := o
    obtain ⟨h1, h2⟩ := h
    cases op with
    | dequeue =>
      refine ⟨fun _ => ?_, ?_⟩
      · rcases h1 rfl with e | ⟨x, l', e⟩ <;> simp [e]
      · have e : (Queue.specStep l (Queue.Op.dequeue : Queue.Op T)).1 = l.tail := by cases l <;> rfl
        show Queue.KeepsOne (Queue.specStep l (Queue.Op.dequeue : Queue.Op T)).1 _
        rw [e]
        exact ih _ h2
    | enqueue v => exact ⟨fun e => by simp at e, ih _ h2⟩
    | peek => exact ⟨fun e => by simp at e, ih _ h2⟩
    | isEmpty => exact ⟨fun e => by simp at e, ih _ h2⟩

omit [Inhabited T] in
/-- The queue that never empties by `Dequeue` shows the same whether nodes are recycled or not. -/
theorem shown_eq_exact (ops : List (Queue.Op T)) (l : List T) (h : Queue.KeepsOne l ops) :
    Queue.shownRun l ops = Queue.exactRun l ops := by
  induction ops generalizing l with
  | nil => rfl
  | cons op ops ih =>
    obtain ⟨h1, h2⟩ := h
    have e : Queue.shownStep l op = Queue.exactStep l op := by
      rcases l with _ | ⟨x, _ | ⟨y, l⟩⟩ <;> cases op <;> first | rfl | exact absurd rfl (h1 rfl)
    simp only [Queue.shownRun, Queue.exactRun, e, ih _ h2]

theorem queue_from (n : Nat) (ops : List (QOp T × Rt)) (acc : Nat) (l : List T) (ha : acc ≤ n) (hl : l.length ≤ acc) :
    Queue.exactRun l (ops.map fun o => o.1.linked o.2) =
      (Ring.realRun n acc l (ops.map fun o => o.1.ring)).map ofRing ↔
      acc + enqueues (ops.map Prod.fst) ≤ n ∧ DequeuesBlind l (ops.map Prod.fst) := by
  induction ops generalizing acc l with
  | nil => simp [Queue.exactRun, Ring.realRun, DequeuesBlind, enqueues, ha]
  | cons o ops ih =>
    obtain ⟨op, r⟩ := o
    cases op with
    | enqueue v =>
      have e : Queue.exactStep l (QOp.linked r (.enqueue v)) = (.bool true : Res T) := by
        rcases l with _ | ⟨x, _ | ⟨y, l⟩⟩ <;> rfl
      simp only [List.map_cons, Queue.exactRun, Ring.realRun, e, enqueues, DequeuesBlind]
      by_cases hlt : acc < n
      · simp only [QOp.linked_enqueue, QOp.ring_enqueue, Ring.realStep, hlt, if_true, Queue.specStep, ofRing, List.cons.injEq,
          true_and]
        rw [ih (acc + 1) (l ++ [v]) (by omega) (by simp; omega)]
        simp only [queueAfter]
        constructor
        · rintro ⟨h1, h2⟩; exact ⟨by omega, by simp, h2⟩
        · rintro ⟨h1, _, h2⟩; exact ⟨by omega, h2⟩
      · constructor
        · intro h
          exfalso
          have := (List.cons.inj h).1
          simp only [QOp.ring_enqueue, Ring.realStep, hlt, if_false] at this
          split at this <;> simp [ofRing] at this
        · rintro ⟨h1, _⟩; omega
    | peek =>
      have e : Queue.exactStep l (QOp.linked r (.peek : QOp T)) = ofRing (Ring.realStep n acc l (QOp.ring .peek)).2 := by
        rcases l with _ | ⟨x, _ | ⟨y, l⟩⟩ <;> rfl
      simp only [List.map_cons, Queue.exactRun, Ring.realRun, e, enqueues, DequeuesBlind, List.cons.injEq, true_and]
      simp only [QOp.linked_peek, QOp.ring_peek, Ring.realStep, Ring.specStep, Queue.specStep, ih acc l ha hl, queueAfter]
      simp
    | isEmpty =>
      have e : Queue.exactStep l (QOp.linked r (.isEmpty : QOp T)) =
          ofRing (Ring.realStep n acc l (QOp.ring .isEmpty)).2 := by
        rcases l with _ | ⟨x, _ | ⟨y, l⟩⟩ <;> simp [QOp.linked_isEmpty, QOp.ring_isEmpty, Queue.exactStep, Queue.shownStep, Queue.specStep,
          Ring.realStep, Ring.specStep, ofRing]
      simp only [List.map_cons, Queue.exactRun, Ring.realRun, e, enqueues, DequeuesBlind, List.cons.injEq, true_and]
      simp only [QOp.linked_isEmpty, QOp.ring_isEmpty, Ring.realStep, Ring.specStep, Queue.specStep, ih acc l ha hl, queueAfter]
      simp
    | dequeue =>
      rcases l with _ | ⟨x, _ | ⟨y, l⟩⟩
      · simp only [List.map_cons, Queue.exactRun, Ring.realRun, QOp.linked_dequeue, QOp.ring_dequeue, Queue.exactStep, Queue.shownStep,
          Queue.specStep, Ring.realStep, Ring.specStep, ofRing, enqueues, DequeuesBlind, queueAfter, List.cons.injEq,
          true_and, ih acc [] ha hl]
        simp
      · simp [Queue.exactRun, Ring.realRun, QOp.linked_dequeue, QOp.ring_dequeue, Queue.exactStep, Ring.realStep, Ring.specStep, ofRing,
          DequeuesBlind]
      · have hl' : (y :: l).length ≤ acc := by simp at hl ⊢; omega
        simp only [List.map_cons, Queue.exactRun, Ring.realRun, QOp.linked_dequeue, QOp.ring_dequeue, Queue.exactStep, Queue.shownStep,
          Queue.specStep, Ring.realStep, Ring.specStep, ofRing, enqueues, DequeuesBlind, queueAfter, List.cons.injEq,
          ih acc (y :: l) ha hl', List.tail_cons]
        simp
        constructor
        · rintro ⟨rfl, h⟩; exact ⟨h.1, rfl, h.2⟩
        · rintro ⟨h1, rfl, h2⟩; exact ⟨rfl, h1, h2⟩

omit [Inhabited T] in
theorem safe_of_careful (ops : List (LOp T × Rt)) (fresh : Bool) (l : List T)
    (h : Careful fresh l (ops.map Prod.fst)) : LList.Safe fresh l (ops.map fun o => o.1.linked o.2) := by
  induction ops generalizing fresh l with
  | nil => trivial
  | cons o ops ih =>
    obtain ⟨op, r⟩ := o
    cases op with
    | append v =>
      refine ⟨h.1, ?_⟩
      have := ih _ _ h.2
      simpa [LOp.linked_append, LList.stays, LList.specStep, listAfter] using this
    | insert i v =>
      refine ⟨h.1, ?_⟩
      have := ih _ _ h.2
      simpa [LOp.linked_insert, LList.stays, LList.specStep, listAfter, h.1.1] using this
    | remove i =>
      refine ⟨h.1, ?_⟩
      have := ih _ _ h.2
      simpa [LOp.linked_remove, LList.stays, LList.specStep, listAfter, h.1.1] using this
    | «at» i =>
      refine ⟨trivial, ?_⟩
      have := ih _ _ h
      simpa [LOp.linked_at, LList.stays, LList.specStep] using this
    | iterate f =>
      refine ⟨trivial, ?_⟩
      have := ih _ _ h
      simpa [LOp.linked_iterate, LList.stays, LList.specStep] using this
    | len =>
      refine ⟨trivial, ?_⟩
      have := ih _ _ h
      simpa [LOp.linked_len, LList.stays, LList.specStep] using this

omit [Inhabited T] in
theorem visited_eq_iter (f : List T → Bool) (l acc : List T) : LList.visited f acc l = SliceC.iter f acc l := by
  induction l generalizing acc with
  | nil => rfl
  | cons x l ih =>
    simp only [LList.visited, SliceC.iter, ih]
    cases f (acc ++ [x]) <;> rfl

omit [Inhabited T] in
theorem nth_elem (l : List T) (i : Int) : ofSlice (SliceC.ofOpt (SliceC.nth l i)) = LList.elem l i := by
  unfold SliceC.nth LList.elem
  split
  · cases l[i.toNat]? <;> rfl
  · rfl

theorem list_from (ops : List (LOp T × Rt)) (fresh : Bool) (l : List T) (rs : List (SliceC.Res T))
    (h : Careful fresh l (ops.map Prod.fst))
    (hs : SliceC.ListSpecRun l (ops.map fun o => o.1.slice o.2) rs) :
    LList.specRun l (ops.map fun o => o.1.linked o.2) = rs.map ofSlice := by
  induction ops generalizing fresh l rs with
  | nil => cases hs; rfl
  | cons o ops ih =>
    obtain ⟨op, r⟩ := o
    cases hs with
    | cons h1 h2 =>
      rename_i l' r' rs'
      cases op with
      | append v =>
        obtain ⟨rfl, rfl⟩ := h1
        exact congrArg (Res.unit :: ·) (ih _ _ _ h.2 h2)
      | insert i v =>
        simp only [LOp.slice, SliceC.ListSpec, h.1, and_self, if_true] at h1
        obtain ⟨rfl, rfl⟩ := h1
        have e : l.take i.toNat ++ v :: l.drop i.toNat = l.insertIdx i.toNat v := by
          have hle : i.toNat ≤ l.length := by have := h.1; omega
          generalize i.toNat = k at hle ⊢
          clear h h2 ih
          induction l generalizing k with
          | nil => obtain rfl : k = 0 := by simpa using hle
                   rfl
          | cons x l ih => cases k with
            | zero => rfl
            | succ k => simpa using ih k (by simpa using hle)
        rw [e] at h2
        have := ih _ _ _ h.2 h2
        simp only [List.map_cons, LList.specRun, LOp.linked_insert, LList.specStep, h.1.1, if_true, ofSlice]
        exact congrArg (Res.unit :: ·) this
      | remove i =>
        obtain ⟨rfl, rfl⟩ := h1
        simp only [h.1.1, if_true] at h2
        have := ih _ _ _ h.2 h2
        simp only [List.map_cons, LList.specRun, LOp.linked_remove, LList.specStep, h.1.1, if_true, nth_elem]
        exact congrArg _ this
      | «at» i =>
        obtain ⟨rfl, rfl⟩ := h1
        have := ih _ _ _ h h2
        simp only [List.map_cons, LList.specRun, LOp.linked_at, LList.specStep, nth_elem, this]
      | iterate f =>
        obtain ⟨rfl, vs, rfl, hv⟩ := h1
        have := ih _ _ _ h h2
        have e : vs = LList.visited f [] l' := by
          rw [visited_eq_iter]
          exact SliceC.C19_visits_unique f l' _ _ hv
            (SliceC.iter_spec f l' [] l' rfl (fun ws h1 h2 => absurd (List.prefix_nil.1 h2) h1))
        simp only [List.map_cons, LList.specRun, LOp.linked_iterate, LList.specStep, ofSlice, e, this]
      | len =>
        obtain ⟨rfl, rfl⟩ := h1
        have := ih _ _ _ h h2
        simp only [List.map_cons, LList.specRun, LOp.linked_len, LList.specStep, ofSlice, this]

end Verif.Dsx
