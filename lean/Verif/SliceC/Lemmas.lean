import Verif.SliceC.Spec
/-!
# Refinement of the slice stack and the slice list
-/
namespace Verif.SliceC
open Verif.Go
variable {T : Type} [Inhabited T]

structure Rep (x : St T) (l : List T) : Prop where
  ok : x.s.Ok x.h
  data : elems x.h x.s = l

theorem Rep.len {x : St T} {l : List T} (r : Rep x l) : x.s.len = l.length := by
  rw [← r.data]; simp

theorem append_rep {x : St T} {l : List T} (r : Rep x l) (g : Nat) (v : T) :
    Rep ⟨(append x.h g x.s [v]).1, (append x.h g x.s [v]).2⟩ (l ++ [v]) :=
  ⟨append_ok _ _ _ r.ok, by rw [append_elems, r.data]⟩

theorem stackStep_rep {x : St T} {l : List T} (r : Rep x l.reverse) (op : SOp T) :
    (stackStep x op).2 = (stackSpec l op).2 ∧ Rep (stackStep x op).1 (stackSpec l op).1.reverse := by
  have hlen := r.len
  simp only [List.length_reverse] at hlen
  cases op with
  | push v g =>
    refine ⟨rfl, ?_⟩
    have := append_rep r g v
    simpa [stackStep, push, stackSpec] using this
  | pop =>
    simp only [stackStep, pop, stackSpec]
    cases l with
    | nil => simp only [List.length_nil] at hlen; rw [if_pos hlen]; exact ⟨rfl, r⟩
    | cons a l =>
      simp only [List.length_cons] at hlen
      rw [if_neg (by omega)]
      obtain ⟨v, hv, he⟩ := index_ret x.h (s := x.s) (i := (x.s.len : Int) - 1) (by omega) (by omega)
      have hle := r.ok.le
      rw [hv, reslice_ret (by omega) (by omega) (by omega)]
      have e1 : ((x.s.len : Int) - 1).toNat = l.length := by omega
      rw [r.data, e1] at he
      simp only [List.reverse_cons] at he
      rw [List.getElem?_append_right (by simp)] at he
      simp at he
      subst he
      have e2 : ((x.s.len : Int) - 1 - 0).toNat = l.length := by omega
      have e3 := window_elems x.h x.s 0 l.length x.s.cap (by omega)
      have e4 := window_ok r.ok 0 l.length (by omega) (by omega)
      simp only [Nat.add_zero, Nat.sub_zero, List.drop_zero, r.data] at e3 e4
      refine ⟨rfl, ?_, ?_⟩
      · simpa [hlen] using e4
      · simpa [hlen] using e3
  | peek =>
    simp only [stackStep, peek, stackSpec]
    cases l with
    | nil => simp only [List.length_nil] at hlen; rw [if_pos hlen]; exact ⟨rfl, r⟩
    | cons a l =>
      simp only [List.length_cons] at hlen
      rw [if_neg (by omega)]
      obtain ⟨v, hv, he⟩ := index_ret x.h (s := x.s) (i := (x.s.len : Int) - 1) (by omega) (by omega)
      rw [hv]
      have e1 : ((x.s.len : Int) - 1).toNat = l.length := by omega
      rw [r.data, e1] at he
      simp only [List.reverse_cons] at he
      rw [List.getElem?_append_right (by simp)] at he
      simp at he
      subst he
      exact ⟨rfl, r⟩
  | isEmpty =>
    refine ⟨?_, r⟩
    simp only [stackStep, stackSpec, hlen]
    cases l <;> rfl
  | len => exact ⟨by simp only [stackStep, stackSpec, hlen], r⟩

theorem stackRun_rep {x : St T} {l : List T} (r : Rep x l.reverse) (ops : List (SOp T)) :
    stackRun x ops = stackSpecRun l ops := by
  induction ops generalizing x l with
  | nil => rfl
  | cons op ops ih =>
    obtain ⟨e, r'⟩ := stackStep_rep r op
    simp only [stackRun, stackSpecRun, e, ih r']

theorem newStack_rep (h : Hp T) : Rep (newStack h) ([] : List T).reverse :=
  ⟨alloc_ok _ _ _, alloc_elems _ _ _⟩

theorem newList_rep (h : Hp T) : Rep (newList h) ([] : List T) := ⟨Sl.nil_ok h, rfl⟩

theorem index_nth {x : St T} {l : List T} (r : Rep x l) {i : Int} (h0 : 0 ≤ i) (h1 : i < l.length) :
    ∃ v, index x.h x.s i = .ret v ∧ nth l i = some v := by
  obtain ⟨v, hv, he⟩ := index_ret x.h (s := x.s) (i := i) h0 (by rw [r.len]; exact h1)
  refine ⟨v, hv, ?_⟩
  rw [r.data] at he
  simp only [nth, h0, if_true, he]

omit [Inhabited T] in
theorem nth_none {l : List T} {i : Int} (h : i < 0 ∨ i ≥ l.length) : nth l i = none := by
  unfold nth
  split
  · rw [List.getElem?_eq_none (by omega)]
  · rfl

omit [Inhabited T] in
theorem iter_spec (f : List T → Bool) (l acc full : List T) (hf : full = acc ++ l)
    (hacc : ∀ ws, ws ≠ [] → ws <+: acc → f ws = true) : Visits f full (iter f acc l) := by
  induction l generalizing acc with
  | nil =>
    simp only [List.append_nil] at hf
    subst hf
    exact ⟨List.prefix_refl _, fun ws h1 h2 _ => hacc ws h1 h2, Or.inl rfl⟩
  | cons v vs ih =>
    simp only [iter]
    have hpre : ∀ ws : List T, ws <+: acc ++ [v] → ws ≠ acc ++ [v] → ws <+: acc := by
      intro ws h1 h2
      have h3 : ws.length ≤ acc.length := by
        have h4 := h1.length_le
        have : ws.length ≠ (acc ++ [v]).length := fun e => h2 (h1.eq_of_length e)
        simp at h4 this; omega
      exact List.prefix_of_prefix_length_le h1 (List.prefix_append _ _) h3
    by_cases hb : f (acc ++ [v]) = true
    · simp only [hb, Bool.not_true, Bool.false_eq_true, if_false]
      refine ih (acc ++ [v]) (by simp [hf]) (fun ws h1 h2 => ?_)
      by_cases e : ws = acc ++ [v]
      · rw [e]; exact hb
      · exact hacc ws h1 (hpre ws h2 e)
    · have hb' : f (acc ++ [v]) = false := by simpa using hb
      simp only [hb', Bool.not_false, if_true]
      refine ⟨⟨vs, by simp [hf]⟩, fun ws h1 h2 h3 => hacc ws h1 (hpre ws h2 h3), Or.inr ⟨by simp, hb'⟩⟩

/-- Shifting the tail of a list with a junk last element one to the right and storing at `i`. -/
theorem insert_list (l : List T) (j v : T) (i : Nat) (hi : i ≤ l.length) (k : Nat) (hk : k < l.length + 1) :
    (l.take i ++ v :: l.drop i)[k]? =
      if k < i then (l ++ [j])[k]? else if k = i then some v else (l ++ [j])[k - 1]? := by
  by_cases h1 : k < i
  · rw [if_pos h1, List.getElem?_append_left (by simp; omega), List.getElem?_append_left (by omega),
      List.getElem?_take_of_lt h1]
  · rw [if_neg h1, List.getElem?_append_right (by simp; omega)]
    simp only [List.length_take, Nat.min_eq_left hi]
    by_cases h2 : k = i
    · subst h2; simp
    · rw [if_neg h2, List.getElem?_append_left (by omega), show k - i = (k - i - 1) + 1 by omega,
        List.getElem?_cons_succ, List.getElem?_drop]
      congr 1
      omega

theorem linsert_in {x : St T} {l : List T} (r : Rep x l) (i : Int) (v : T) (g : Nat) (hi : InInt64 i)
    (h0 : 0 ≤ i) (h1 : i ≤ l.length) (hs : (l.length : Int) < 2 ^ 63 - 1) :
    Rep (linsert x i v g).1 (l.take i.toNat ++ v :: l.drop i.toNat) ∧ (linsert x i v g).2 = .unit := by
  have ra := append_rep r g v
  simp only [linsert]
  generalize hap : append x.h g x.s [v] = p at ra
  obtain ⟨h, s⟩ := p
  simp only at ra ⊢
  have hlen := ra.len
  simp only [List.length_append, List.length_singleton] at hlen
  have hle := ra.ok.le
  simp only at hlen hle
  rw [wrap64_of_in (by unfold InInt64; omega), reslice_ret (by omega) (by omega) (by omega),
    reslice_ret (by omega) (by omega) (by omega)]
  simp only
  obtain ⟨h', hst, hbrk, hel, hout⟩ := store_ret (copySl h ⟨s.arr, s.off + (i + 1).toNat, ((s.len : Int) - (i + 1)).toNat,
    s.cap - (i + 1).toNat⟩ ⟨s.arr, s.off + i.toNat, ((s.len : Int) - i).toNat, s.cap - i.toNat⟩) (s := s) (i := i) v h0 (by omega)
  rw [hst]
  refine ⟨⟨?_, ?_⟩, rfl⟩
  · exact ra.ok.mono (by rw [hbrk]; exact Nat.le_refl _)
  · rw [hel]
    have hd := ra.data
    simp only at hd
    apply List.ext_getElem?
    intro k
    by_cases hk : k < l.length + 1
    · rw [insert_list l v v i.toNat (by omega) k hk, List.getElem?_set, elems_length, elems_getElem?, if_pos (show k < s.len by omega)]
      simp only [copySl]
      rw [show ((s.len : Int) - i).toNat = s.len - i.toNat by omega,
        window_elems h s i.toNat s.len _ (Nat.le_refl _), hd]
      by_cases e1 : k < i.toNat
      · rw [if_neg (by omega), if_pos e1, ← hd, elems_getElem?, if_pos (show k < s.len by omega), blit_out _ _ _ _ _ _ (by omega)]
      · by_cases e2 : k = i.toNat
        · subst e2
          rw [if_pos rfl, if_pos (by omega), if_neg (by omega), if_pos rfl]
        · rw [if_neg (by omega), if_neg e1, if_neg e2]
          have hx : (l ++ [v])[k - 1]? = some ((l ++ [v])[k - 1]'(by simp; omega)) := List.getElem?_eq_getElem _
          rw [hx]
          congr 1
          apply blit_in _ _ _ _ _ _ (by omega)
          rw [List.getElem?_take, if_pos (by omega), List.getElem?_drop, List.getElem?_take, if_pos (by omega), ← hx]
          congr 1
          omega
    · rw [List.getElem?_eq_none (by simp; omega), List.getElem?_eq_none (by simp; omega)]

theorem linsert_out {x : St T} {l : List T} (r : Rep x l) (i : Int) (v : T) (g : Nat) (hi : InInt64 i)
    (h : ¬(0 ≤ i ∧ i ≤ l.length)) :
    Rep (linsert x i v g).1 (l ++ [v]) ∧ (linsert x i v g).2 = .panic := by
  have ra := append_rep r g v
  simp only [linsert]
  generalize hap : append x.h g x.s [v] = p at ra
  obtain ⟨h, s⟩ := p
  simp only at ra ⊢
  have hlen := ra.len
  simp only [List.length_append, List.length_singleton] at hlen
  have hp : reslice s (wrap64 (i + 1)) s.len = .panic ∨ reslice s i s.len = .panic := by
    by_cases h0 : 0 ≤ i
    · left
      unfold reslice
      rw [if_neg]
      by_cases hm : i = 2 ^ 63 - 1
      · subst hm
        have : wrap64 (2 ^ 63 - 1 + 1) = - 2 ^ 63 := by decide
        rw [this]
        intro hc
        omega
      · rw [wrap64_of_in (by unfold InInt64 at *; omega)]
        omega
    · right
      unfold reslice
      rw [if_neg (by omega)]
  rcases hp with hp | hp
  · rw [hp]; exact ⟨ra, rfl⟩
  · rw [hp]
    cases reslice s (wrap64 (i + 1)) s.len <;> exact ⟨ra, rfl⟩

/-- The indices are `int`s and the list is shorter than `2^63-1`. -/
def OpOk : LOp T → Prop
  | .insert i _ _ => InInt64 i
  | .remove i => InInt64 i
  | _ => True

theorem listStep_rep {x : St T} {l : List T} (r : Rep x l) (op : LOp T) (ho : OpOk op)
    (hs : (l.length : Int) < 2 ^ 63 - 1) :
    ∃ l', Rep (listStep x op).1 l' ∧ ListSpec l op l' (listStep x op).2 := by
  cases op with
  | append v g => exact ⟨l ++ [v], append_rep r g v, rfl, rfl⟩
  | insert i v g =>
    by_cases h : 0 ≤ i ∧ i ≤ l.length
    · obtain ⟨h1, h2⟩ := linsert_in r i v g ho h.1 h.2 hs
      refine ⟨_, h1, ?_⟩
      simp only [ListSpec, if_pos h]
      exact ⟨trivial, h2⟩
    · obtain ⟨h1, h2⟩ := linsert_out r i v g ho h
      refine ⟨_, h1, ?_⟩
      simp only [ListSpec, if_neg h]
      exact ⟨trivial, h2⟩
  | remove i =>
    simp only [listStep, lremove, ListSpec]
    have hlen := r.len
    by_cases h : i < 0 ∨ i ≥ x.s.len
    · rw [if_pos h]
      refine ⟨l, r, ?_, ?_⟩
      · split
        · rw [List.eraseIdx_of_length_le (by omega)]
        · rfl
      · rw [nth_none (by omega)]; rfl
    · rw [if_neg h]
      obtain ⟨v, hv, hn⟩ := index_nth r (i := i) (by omega) (by omega)
      have hle := r.ok.le
      rw [hv, wrap64_of_in (by unfold InInt64; omega), reslice_ret (by omega) (by omega) (by omega),
        reslice_ret (by omega) (by omega) (by omega)]
      simp only
      refine ⟨l.eraseIdx i.toNat, ⟨append_ok _ _ _ ?_, ?_⟩, ?_, ?_⟩
      · have := window_ok r.ok 0 i.toNat (by omega) (by omega)
        simpa using this
      · rw [append_elems]
        have e1 := window_elems x.h x.s 0 i.toNat x.s.cap (by omega)
        have e2 := window_elems x.h x.s (i + 1).toNat x.s.len (x.s.cap - (i + 1).toNat) (Nat.le_refl _)
        simp only [Nat.add_zero, Nat.sub_zero, List.drop_zero] at e1
        simp only [Int.toNat_zero, Nat.add_zero, Nat.sub_zero, Int.sub_zero]
        rw [e1, show ((x.s.len : Int) - (i + 1)).toNat = x.s.len - (i + 1).toNat by omega, e2, r.data, hlen,
          List.take_length, show (i + 1).toNat = i.toNat + 1 by omega, List.eraseIdx_eq_take_drop_succ]
      · rw [if_pos (by omega)]
      · rw [hn]; rfl
  | «at» i =>
    simp only [listStep, lat, ListSpec]
    have hlen := r.len
    by_cases h : i < 0 ∨ i ≥ x.s.len
    · rw [if_pos h]
      exact ⟨l, r, rfl, by rw [nth_none (by omega)]; rfl⟩
    · rw [if_neg h]
      obtain ⟨v, hv, hn⟩ := index_nth r (i := i) (by omega) (by omega)
      rw [hv]
      exact ⟨l, r, rfl, by rw [hn]; rfl⟩
  | iterate f =>
    refine ⟨l, r, rfl, _, rfl, ?_⟩
    rw [r.data]
    exact iter_spec f l [] l rfl (fun ws h1 h2 => absurd (List.prefix_nil.1 h2) h1)
  | len => exact ⟨l, r, rfl, by simp only [listStep, r.len]⟩

theorem listRun_rep {x : St T} {l : List T} (r : Rep x l) (ops : List (LOp T)) (ho : ∀ op ∈ ops, OpOk op)
    (hs : (l.length + ops.length : Int) < 2 ^ 63) : ListSpecRun l ops (listRun x ops) := by
  induction ops generalizing x l with
  | nil => exact .nil
  | cons op ops ih =>
    simp only [List.length_cons] at hs
    obtain ⟨l', r', h⟩ := listStep_rep r op (ho op (by simp)) (by omega)
    refine .cons h (ih r' (fun o h => ho o (by simp [h])) ?_)
    have : l'.length ≤ l.length + 1 := by
      cases op with
      | append v g => rw [h.1]; simp
      | insert i v g =>
        simp only [ListSpec] at h
        split at h
        · rw [h.1]; simp; omega
        · rw [h.1]; simp
      | remove i =>
        rw [h.1]
        split
        · have := List.length_eraseIdx_le l i.toNat; omega
        · omega
      | «at» i => rw [h.1]; omega
      | iterate f => rw [h.1]; omega
      | len => rw [h.1]; omega
    omega

end Verif.SliceC
