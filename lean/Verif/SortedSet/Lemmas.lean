import Verif.SortedSet.Spec
import Verif.Search.Props
import Verif.Slicex.Props
/-!
# One operation keeps the order
-/
namespace Verif.SortedSet
open Verif.Go Verif.Slicex

variable {T : Type} [LinearOrder T]

theorem split_at (x : T) : ∀ (l : List T), l.Pairwise (fun a b => a ≤ b) →
    l.take (l.countP fun v => decide (v < x)) = l.filter (fun v => decide (v < x)) ∧
    l.drop (l.countP fun v => decide (v < x)) = l.filter (fun v => !decide (v < x))
  | [], _ => ⟨rfl, rfl⟩
  | a :: l, h => by
    obtain ⟨h1, h2⟩ := List.pairwise_cons.1 h
    obtain ⟨i1, i2⟩ := split_at x l h2
    by_cases ha : a < x
    · simp [List.countP_cons, ha, i1, i2]
    · have hz : l.countP (fun v => decide (v < x)) = 0 := by
        rw [List.countP_eq_zero]
        intro v hv
        simp only [decide_eq_true_eq]
        exact fun hx => ha (lt_of_le_of_lt (h1 v hv) hx)
      have hf : l.filter (fun v => decide (v < x)) = [] := by
        rw [List.filter_eq_nil_iff]
        exact List.countP_eq_zero.1 hz
      have hg : l.filter (fun v => !decide (v < x)) = l := by
        rw [List.filter_eq_self]
        intro v hv
        have := List.countP_eq_zero.1 hz v hv
        simpa using this
      simp [List.countP_cons, ha, hz, hf, hg]

theorem insert_sorted {l : List T} (x : T) (h : l.Pairwise fun a b => a ≤ b) :
    (l.take (l.countP fun v => decide (v < x)) ++ [x] ++ l.drop (l.countP fun v => decide (v < x))).Pairwise
      fun a b => a ≤ b := by
  obtain ⟨e1, e2⟩ := split_at x l h
  rw [e1, e2, List.append_assoc, List.pairwise_append, List.singleton_append, List.pairwise_cons]
  refine ⟨h.sublist List.filter_sublist, ⟨?_, h.sublist List.filter_sublist⟩, ?_⟩
  · intro v hv
    simp only [List.mem_filter, Bool.not_eq_true', decide_eq_false_iff_not] at hv
    exact le_of_not_gt hv.2
  · intro a ha b hb
    simp only [List.mem_filter, decide_eq_true_eq] at ha
    rcases List.mem_cons.1 hb with rfl | hb
    · exact ha.2.le
    · simp only [List.mem_filter, Bool.not_eq_true', decide_eq_false_iff_not] at hb
      exact ha.2.le.trans (le_of_not_gt hb.2)

theorem insert_perm (l : List T) (x : T) (n : Nat) : ((l.take n ++ [x] ++ l.drop n : List T) : Multiset T) = x ::ₘ (l : Multiset T) := by
  rw [Multiset.cons_coe, Multiset.coe_eq_coe, List.append_assoc, List.singleton_append]
  refine List.perm_middle.trans ?_
  rw [List.take_append_drop]

/-- The first element that is not smaller is the first occurrence. -/
theorem erase_at {l : List T} {x : T} (h : l.Pairwise fun a b => a ≤ b) (hx : x ∈ l) :
    l.eraseIdx (l.countP fun v => decide (v < x)) = l.erase x := by
  induction l with
  | nil => cases hx
  | cons a l ih =>
    obtain ⟨h1, h2⟩ := List.pairwise_cons.1 h
    by_cases ha : a < x
    · have hne : a ≠ x := ha.ne
      have hm : x ∈ l := by
        rcases List.mem_cons.1 hx with rfl | hm
        · exact absurd rfl hne
        · exact hm
      rw [List.countP_cons, if_pos (by simpa using ha), List.eraseIdx_cons_succ, ih h2 hm, List.erase_cons_tail (by simpa using hne)]
    · have hax : a = x := by
        rcases List.mem_cons.1 hx with rfl | hm
        · rfl
        · exact le_antisymm (h1 x hm) (le_of_not_gt ha)
      subst hax
      have hz : l.countP (fun v => decide (v < a)) = 0 := by
        rw [List.countP_eq_zero]
        intro v hv
        simp only [decide_eq_true_eq]
        exact fun hh => absurd (h1 v hv) (not_le_of_gt hh)
      simp [List.countP_cons, hz]

variable [Inhabited T]

theorem step_spec {w : Hp T × Sl} (o : w.2.Ok w.1) (hl : w.2.len < 2 ^ 63)
    (hs : (elems w.1 w.2).Pairwise fun a b => a ≤ b) (op : Op T) :
    ∃ w', step w op = .ret (w', decide (op.elem ∈ elems w.1 w.2)) ∧ w'.2.Ok w'.1 ∧ w'.2.len ≤ w.2.len + 1 ∧
      (elems w'.1 w'.2).Pairwise (fun a b => a ≤ b) ∧
      (elems w'.1 w'.2 : Multiset T) = after (elems w.1 w.2 : Multiset T) op := by
  obtain ⟨h, s⟩ := w
  simp only at o hl hs ⊢
  have hlen : (elems h s).length = s.len := elems_length h s
  have hc : (elems h s).countP (fun v => decide (v < op.elem)) ≤ s.len := by
    rw [← hlen]; exact List.countP_le_length
  have hb : bound ((elems h s).countP (fun v => decide (v < op.elem)) : Nat) s.len =
      (elems h s).countP (fun v => decide (v < op.elem)) := by
    unfold bound; omega
  have hsearch := Search.C78_sorted (elems h s) op.elem (by rw [hlen]; exact hl) hs
  have ins : ∀ g1 g2, ∃ h' s', insert h g1 g2 s ((elems h s).countP (fun v => decide (v < op.elem)) : Nat) op.elem = .ret (h', s') ∧
      s'.Ok h' ∧ s'.len ≤ s.len + 1 ∧ (elems h' s').Pairwise (fun a b => a ≤ b) ∧
      (elems h' s' : Multiset T) = op.elem ::ₘ (elems h s : Multiset T) := by
    intro g1 g2
    obtain ⟨h', s', e, ok, _, he, _⟩ := insert_spec h g1 g2 ((elems h s).countP (fun v => decide (v < op.elem)) : Nat) op.elem o
    rw [hb] at he
    refine ⟨h', s', e, ok, ?_, ?_, ?_⟩
    · have := congrArg List.length he
      rw [elems_length] at this
      simp only [List.length_append, List.length_take, List.length_drop, List.length_singleton] at this
      omega
    · rw [he]; exact insert_sorted _ hs
    · rw [he]; exact insert_perm _ _ _
  unfold step
  simp only
  rw [hsearch]
  simp only [Outcome.bind_ret]
  cases op with
  | add x g1 g2 =>
    obtain ⟨h', s', e, a1, a2, a3, a4⟩ := ins g1 g2
    simp only [Op.elem] at e a4 ⊢
    exact ⟨(h', s'), by rw [e]; rfl, a1, a2, a3, a4⟩
  | addOnce x g1 g2 =>
    obtain ⟨h', s', e, a1, a2, a3, a4⟩ := ins g1 g2
    simp only [Op.elem] at e a4 ⊢
    by_cases hx : x ∈ elems h s
    · exact ⟨(h, s), by simp [hx], o, Nat.le_succ _, hs, by simp [after, hx]⟩
    · exact ⟨(h', s'), by simp [hx, e, Outcome.map], a1, a2, a3, by simp [after, hx, a4]⟩
  | remove x g1 g2 =>
    simp only [Op.elem] at hc ⊢
    by_cases hx : x ∈ elems h s
    · have hlt : (elems h s).countP (fun v => decide (v < x)) < s.len := by
        rw [← hlen]
        rcases Nat.lt_or_eq_of_le (List.countP_le_length (p := fun v => decide (v < x)) (l := elems h s)) with hh | hh
        · exact hh
        · have := (List.countP_eq_length.1 hh) x hx
          simp at this
      obtain ⟨h', s', e, ok, _, he, _⟩ := delete_spec h g1 g2 ((elems h s).countP (fun v => decide (v < x)) : Nat) o
        (by unfold InInt64; omega) (by omega)
      have he' : elems h' s' = (elems h s).erase x := by
        rw [he, deleteSpec, if_pos (by omega), Int.toNat_natCast, erase_at hs hx]
      refine ⟨(h', s'), (if_pos (decide_eq_true hx)).trans (congrArg (Outcome.map _) e), ok, ?_, ?_, ?_⟩
      · have := congrArg List.length he'
        rw [elems_length] at this
        have := List.length_erase_le (a := x) (l := elems h s)
        simp only
        omega
      · simp only; rw [he']; exact hs.sublist List.erase_sublist
      · simp only; rw [he', after, Multiset.coe_erase]
    · exact ⟨(h, s), by simp [hx], o, Nat.le_succ _, hs, by simp [after, hx]⟩
  | has x => exact ⟨(h, s), rfl, o, Nat.le_succ _, hs, rfl⟩

theorem run_spec : ∀ (ops : List (Op T)) (w : Hp T × Sl), w.2.Ok w.1 → w.2.len + ops.length ≤ 2 ^ 63 →
    (elems w.1 w.2).Pairwise (fun a b => a ≤ b) →
    ∃ w', run w ops = .ret (w', answers (elems w.1 w.2 : Multiset T) ops) ∧ w'.2.Ok w'.1 ∧
      (elems w'.1 w'.2).Pairwise (fun a b => a ≤ b) ∧
      (elems w'.1 w'.2 : Multiset T) = afterAll (elems w.1 w.2 : Multiset T) ops
  | [], w, o, _, hs => ⟨w, rfl, o, hs, rfl⟩
  | op :: ops, w, o, hl, hs => by
    simp only [List.length_cons] at hl
    obtain ⟨w1, e1, o1, l1, s1, m1⟩ := step_spec o (by omega) hs op
    obtain ⟨w2, e2, o2, s2, m2⟩ := run_spec ops w1 o1 (by omega) s1
    refine ⟨w2, ?_, o2, s2, ?_⟩
    · simp only [run, e1, Outcome.bind_ret, e2, Outcome.map, answers, m1]
      simp
    · rw [m2, m1]; rfl

end Verif.SortedSet
