import Verif.InterExact.Props
import Verif.InterTrue.Spec
/-!
# Lemmas: where the scans stop, also when edges coincide
-/
namespace Verif.InterTrue
open Verif.Go Verif.Inter Verif.InterExact

theorem right_eq (is : List Interval) (t : Int) : right is t = containing is t := rfl

/-- The scan stops before `x` if the edges before `x` are enough. -/
theorem scan_before {s : List Tuple} (so : InterExact.Sorted s) {need x : Int} (hn : 0 < need)
    (hx : need ≤ total (-1) (s.filter fun u => decide (u.off < x))) (mid : Int) :
    ∃ a m, scan (-1) need s 0 mid = (some a, m) ∧ a < x := by
  have hq : ∀ u v : Tuple, u.off ≤ v.off → decide (v.off < x) = true → decide (u.off < x) = true := by
    intro u v h1 h2; simp at h2 ⊢; omega
  rcases scan_cases (-1) need s 0 mid with ⟨pre, t, post, e, e1, e2, e3⟩ | ⟨e1, e3⟩
  · refine ⟨_, _, e1, ?_⟩
    by_contra hc
    have ss := so
    rw [e, InterExact.Sorted, List.pairwise_append, List.pairwise_cons] at ss
    obtain ⟨spre, ⟨hpost, _⟩, _⟩ := ss
    have hf : s.filter (fun u => decide (u.off < x)) = pre.filter fun u => decide (u.off < x) := by
      rw [e, List.filter_append]
      suffices h0 : (t :: post).filter (fun u => decide (u.off < x)) = [] by rw [h0, List.append_nil]
      rw [List.filter_eq_nil_iff]
      intro u hu hv
      simp only [decide_eq_true_eq] at hv
      rcases List.mem_cons.1 hu with rfl | hu
      · omega
      · have := hpost u hu; omega
    rw [hf] at hx
    have := lt_of_prefix hn e3 (filter_prefix spre hq)
    omega
  · have := lt_of_prefix hn e3 (filter_prefix so hq)
    omega

theorem count_inside {is : List Interval} (h : ∀ i ∈ is, Sane i) (x : Int) :
    inside is x + is.countP (fun i => decide (i.up < x)) ≤ is.countP (fun i => decide (i.low < x)) ∧
    inside is x + is.countP (fun i => decide (x < i.low)) ≤ is.countP (fun i => decide (x < i.up)) := by
  unfold inside
  induction is with
  | nil => simp
  | cons i is ih =>
    obtain ⟨i1, i2⟩ := ih fun u hu => h u (List.mem_cons_of_mem _ hu)
    have hb := (h i (List.mem_cons_self ..)).1
    have hl : i.low ≤ i.up := by unfold Interval.low Interval.up; omega
    simp only [List.countP_cons, decide_eq_true_eq]
    constructor <;> split_ifs <;> omega

theorem scan_lower {is : List Interval} (h : ∀ i ∈ is, Sane i) {s : List Tuple} (hso : SortedTo (tuples is) s) {need x : Int}
    (hn : 0 < need) (hx : need ≤ inside is x) (mid : Int) : ∃ a m, scan (-1) need s 0 mid = (some a, m) ∧ a < x := by
  have ty : Typed s := fun u hu => typed_tuples is u (hso.1.subset hu)
  refine scan_before (hso.2.imp fun h => by simpa [less] using h) hn ?_ mid
  rw [(total_eq (typed_filter ty _)).1, edges, edges, List.countP_filter, List.countP_filter, hso.1.countP_eq, hso.1.countP_eq,
    (count_tuples h fun y => decide (y < x)).1, (count_tuples h fun y => decide (y < x)).2.2]
  have := (count_inside h x).1
  omega

theorem scan_upper {is : List Interval} (h : ∀ i ∈ is, Sane i) {s : List Tuple} (hso : SortedTo (tuples is) s) {need x : Int}
    (hn : 0 < need) (hx : need ≤ inside is x) (mid : Int) : ∃ b m, scan 1 need s.reverse 0 mid = (some b, m) ∧ x < b := by
  have ty : Typed s := fun u hu => typed_tuples is u (hso.1.subset hu)
  have so : InterExact.Sorted s := hso.2.imp fun h => by simpa [less] using h
  have ty' : Typed (s.reverse.map InterExact.flip) := by
    intro t ht
    obtain ⟨u, hu, rfl⟩ := List.mem_map.1 ht
    have := ty u (by simpa using hu)
    simp only [InterExact.flip]
    omega
  have so' : InterExact.Sorted (s.reverse.map InterExact.flip) := by
    unfold InterExact.Sorted at so ⊢
    rw [List.pairwise_map, List.pairwise_reverse]
    exact so.imp fun h => by simp only [InterExact.flip]; omega
  have key : need ≤ total (-1) ((s.reverse.map InterExact.flip).filter fun u => decide (u.off < -x)) := by
    rw [(total_eq (typed_filter ty' _)).1, edges, edges, List.countP_filter, List.countP_filter, List.countP_map, List.countP_map,
      List.countP_reverse, List.countP_reverse]
    have e1 : s.countP ((fun t : Tuple => decide (t.typ = -1) && decide (t.off < -x)) ∘ InterExact.flip) =
        s.countP (fun t => decide (t.typ = 1) && decide (x < t.off)) := by
      refine List.countP_congr fun u _ => ?_
      show (decide (-u.typ = -1) && decide (-u.off < -x)) = true ↔ (decide (u.typ = 1) && decide (x < u.off)) = true
      simp only [Bool.and_eq_true, decide_eq_true_eq]
      omega
    have e2 : s.countP ((fun t : Tuple => decide (t.typ = 1) && decide (t.off < -x)) ∘ InterExact.flip) =
        s.countP (fun t => decide (t.typ = -1) && decide (x < t.off)) := by
      refine List.countP_congr fun u _ => ?_
      show (decide (-u.typ = 1) && decide (-u.off < -x)) = true ↔ (decide (u.typ = -1) && decide (x < u.off)) = true
      simp only [Bool.and_eq_true, decide_eq_true_eq]
      omega
    rw [e1, e2, hso.1.countP_eq, hso.1.countP_eq, (count_tuples h fun y => decide (x < y)).1,
      (count_tuples h fun y => decide (x < y)).2.2]
    have := (count_inside h x).2
    omega
  obtain ⟨a, m, h1, h2⟩ := scan_before so' hn key mid
  rw [scan_flip, Prod.mk.injEq] at h1
  obtain ⟨b, gb, rfl⟩ := Option.map_eq_some_iff.1 h1.1
  exact ⟨b, _, Prod.ext gb rfl, by omega⟩

/-- What is reported for `F` faults spans all points that are inside all but `F` intervals. -/
theorem span {is : List Interval} (hs : ∀ i ∈ is, Sane i) (h2 : 2 ≤ is.length) {a b : Int} (h : Intersection is (a, b, true)) :
    ∃ F, 2 * F < is.length ∧ is.length ≤ containing is a + F ∧ is.length ≤ containing is b + F ∧
      ∀ x, is.length ≤ inside is x + F → a < x ∧ x < b := by
  generalize hr : (a, b, true) = r at h
  cases h with
  | one i => simp at h2
  | many _ s _ hso =>
    have hlen : s.length / 3 = is.length := by rw [hso.1.length_eq, length_tuples]; omega
    rw [intersection, hlen] at hr
    obtain ⟨f, x, y, m1, m2, hf, e1, e2, ea, eb, hab, hm⟩ := search_ok s is.length _ 0 0 a b (Nat.le_refl _) hr.symm
    obtain ⟨z0, _, _⟩ := zeros_sorted hs hso
    have hzr : zeros s.reverse = zeros s := by simp [zeros]
    refine ⟨f, by omega, ?_⟩
    have hin : ∀ x, is.length ≤ inside is x + f → a < x ∧ x < b := by
      intro p hp
      obtain ⟨a', ma, s1, s2⟩ := scan_lower hs hso (need := is.length - f) (by omega) (x := p) (by omega) 0
      obtain ⟨b', mb, s3, s4⟩ := scan_upper hs hso (need := is.length - f) (by omega) (x := p) (by omega) m1
      rw [s1, Prod.mk.injEq] at e1
      rw [s3, Prod.mk.injEq] at e2
      have xa := ea _ e1.1.symm
      have yb := eb _ e2.1.symm
      omega
    rcases scan_cases (-1) (is.length - f) s 0 0 with ⟨pre, t, post, d0, d1, d2, _⟩ | ⟨d1, _⟩
    · rw [d1, Prod.mk.injEq] at e1
      obtain ⟨u1, u2⟩ := scan_up hs hso d0 (need := is.length - f) (by omega)
      rcases scan_cases 1 (is.length - f) s.reverse 0 m1 with ⟨pre', t', post', c0, c1, c2, _⟩ | ⟨c1, _⟩
      · rw [c1, Prod.mk.injEq] at e2
        obtain ⟨v1, v2⟩ := scan_down hs hso c0 (need := is.length - f) (by omega)
        have xa := ea _ e1.1.symm
        have yb := eb _ e2.1.symm
        rw [← xa] at u1
        rw [← yb] at v1
        exact ⟨by omega, by omega, hin⟩
      · rw [c1, Prod.mk.injEq] at e2
        omega
    · rw [d1, Prod.mk.injEq] at e1
      rcases scan_cases 1 (is.length - f) s.reverse 0 m1 with ⟨pre', t', post', c0, c1, c2, _⟩ | ⟨c1, _⟩
      · rw [c1, Prod.mk.injEq] at e2
        omega
      · rw [c1, Prod.mk.injEq] at e2
        omega

/-- Two majorities have a member in common. -/
theorem common {is : List Interval} {p q : Interval → Bool} (h : is.length < is.countP p + is.countP q) : ∃ i ∈ is, p i = true ∧ q i = true := by
  by_contra hc
  have : is.countP q ≤ is.countP fun i => !p i := by
    refine List.countP_mono_left fun i hi hq => ?_
    by_contra hp
    exact hc ⟨i, hi, by simpa using hp, hq⟩
  have h3 := List.length_eq_countP_add_countP p (l := is)
  have h4 : is.countP (fun i => decide ¬ p i = true) = is.countP fun i => !p i := List.countP_congr fun i _ => by simp
  omega

end Verif.InterTrue
