import Verif.Inter.Props
import Mathlib.Order.Bounds.Basic
/-!
# What the scans of `intersection` find when no two kinds of edges coincide
-/
namespace Verif.InterExact
open Verif.Go Verif.Inter

/-- Lower edges up to `x` less upper edges before `x`. -/
def cont (s : List Tuple) (x : Int) : Int :=
  s.countP (fun t => decide (t.typ = -1) && decide (t.off ≤ x)) - s.countP (fun t => decide (t.typ = 1) && decide (t.off < x))

def Sorted (s : List Tuple) : Prop := s.Pairwise fun a b => a.off ≤ b.off

def Apart (s : List Tuple) : Prop := ∀ t ∈ s, ∀ u ∈ s, t.off = u.off → t.typ = u.typ

theorem filter_prefix {s : List Tuple} (h : Sorted s) {q : Tuple → Bool} (hq : ∀ u v : Tuple, u.off ≤ v.off → q v = true → q u = true) :
    s.filter q <+: s := by
  induction s with
  | nil => simp
  | cons t ts ih =>
    have h' := List.pairwise_cons.1 h
    by_cases ht : q t = true
    · rw [List.filter_cons_of_pos ht]
      exact (List.prefix_cons_inj t).2 (ih h'.2)
    · rw [List.filter_cons_of_neg ht, List.filter_eq_nil_iff.2 fun u hu hv => ht (hq t u (h'.1 u hu) hv)]
      exact List.nil_prefix

theorem typed_filter {s : List Tuple} (h : Typed s) (q : Tuple → Bool) : Typed (s.filter q) :=
  fun t ht => h t (List.mem_filter.1 ht).1

/-- The count at `x` is what some scan of a beginning of `s` comes to. -/
theorem cont_eq {s : List Tuple} (ty : Typed s) (ap : Apart s) (x : Int) : ∃ q : Tuple → Bool,
    cont s x = total (-1) (s.filter q) ∧ (∀ u v : Tuple, u.off ≤ v.off → q v = true → q u = true) ∧ ∀ u, q u = true → u.off ≤ x := by
  by_cases h : ∃ t ∈ s, t.off = x ∧ t.typ = 1
  · obtain ⟨t, ht, e1, e2⟩ := h
    refine ⟨fun u => decide (u.off < x), ?_, fun u v h1 h2 => by simp at h2 ⊢; omega, fun u hu => by simp at hu; omega⟩
    rw [(total_eq (typed_filter ty _)).1, cont, edges, edges, List.countP_filter, List.countP_filter]
    congr 2
    apply List.countP_congr
    intro u hu
    simp only [Bool.and_eq_true, decide_eq_true_eq]
    constructor
    · rintro ⟨h1, h2⟩
      refine ⟨h1, ?_⟩
      rcases Int.lt_or_eq_of_le h2 with h3 | h3
      · exact h3
      · have := ap u hu t ht (by omega)
        omega
    · rintro ⟨h1, h2⟩
      exact ⟨h1, by omega⟩
  · refine ⟨fun u => decide (u.off ≤ x), ?_, fun u v h1 h2 => by simp at h2 ⊢; omega, fun u hu => by simpa using hu⟩
    rw [(total_eq (typed_filter ty _)).1, cont, edges, edges, List.countP_filter, List.countP_filter]
    congr 2
    apply List.countP_congr
    intro u hu
    simp only [Bool.and_eq_true, decide_eq_true_eq]
    constructor
    · rintro ⟨h1, h2⟩
      exact ⟨h1, by omega⟩
    · rintro ⟨h1, h2⟩
      refine ⟨h1, ?_⟩
      rcases Int.lt_or_eq_of_le h2 with h3 | h3
      · exact h3
      · exact absurd ⟨u, hu, h3, h1⟩ h

theorem lt_of_prefix {s l : List Tuple} {need : Int} (hn : 0 < need)
    (h : ∀ p t', (p ++ [t']) <+: l → 0 + total (-1) (p ++ [t']) < need) (hp : s <+: l) : total (-1) s < need := by
  rcases List.eq_nil_or_concat s with rfl | ⟨p, t, rfl⟩
  · simpa [total] using hn
  · rw [List.concat_eq_append] at hp ⊢
    have := h p t hp
    omega

theorem scan_up_exact {s : List Tuple} (ty : Typed s) (so : Sorted s) (ap : Apart s) {need : Int} (hn : 0 < need) (mid : Int) :
    (∃ a, scan (-1) need s 0 mid = (some a, mid + s.countP fun t => decide (t.typ = 0) && decide (t.off < a)) ∧ need ≤ cont s a ∧
      ∀ x, x < a → cont s x < need) ∨
    (scan (-1) need s 0 mid = (none, mid + zeros s) ∧ ∀ x, cont s x < need) := by
  rcases scan_cases (-1) need s 0 mid with ⟨pre, t, post, e, e1, e2, e3⟩ | ⟨e1, e3⟩
  · left
    have ss := so
    rw [e, Sorted, List.pairwise_append, List.pairwise_cons] at ss
    obtain ⟨_, ⟨hpost, _⟩, hpre'⟩ := ss
    have hpre : ∀ u ∈ pre, u.off ≤ t.off := fun u hu => hpre' u hu t (List.mem_cons_self ..)
    have htm : t ∈ s := by rw [e]; simp
    have ht : t.typ = -1 := by
      have h0 : total (-1) pre < need := lt_of_prefix hn e3 (List.prefix_refl _)
      have h1 : total (-1) (pre ++ [t]) = total (-1) pre + -1 * t.typ := by simp [total]
      rcases ty t htm with h | h | h
      · exact h
      · rw [h] at h1; omega
      · rw [h] at h1; omega
    have hz : ∀ u ∈ s, u.typ ≠ -1 → u.off ≠ t.off := fun u hu h1 h2 => h1 ((ap u hu t htm h2).trans ht)
    refine ⟨t.off, ?_, ?_, fun x hx => ?_⟩
    · rw [e1, Prod.mk.injEq]
      refine ⟨rfl, ?_⟩
      congr 2
      rw [e, List.countP_append, List.countP_cons]
      have z : List.countP (fun u : Tuple => decide (u.typ = 0) && decide (u.off < t.off)) post = 0 := by
        rw [List.countP_eq_zero]; intro u hu; have := hpost u hu; simp; intro _; omega
      rw [z]
      simp only [ht]
      simp only [zeros]
      rw [show (decide ((-1 : Int) = 0) && decide (t.off < t.off)) = false by simp]
      simp only [Bool.false_eq_true, if_false, Nat.add_zero]
      apply List.countP_congr
      intro u hu
      simp only [Bool.and_eq_true, decide_eq_true_eq]
      constructor
      · intro h0
        have h2 := hpre u hu
        have h3 := hz u (by rw [e]; simp [hu]) (by omega)
        exact ⟨h0, by omega⟩
      · exact fun h => h.1
    · have tt := (total_eq (l := pre ++ [t]) (fun u hu => ty u (by rw [e]; simp at hu ⊢; tauto))).1
      have k1 : edges (-1) (pre ++ [t]) ≤ s.countP (fun u => decide (u.typ = -1) && decide (u.off ≤ t.off)) := by
        rw [e, show pre ++ t :: post = (pre ++ [t]) ++ post by simp, List.countP_append]
        have : List.countP (fun u : Tuple => decide (u.typ = -1)) (pre ++ [t]) ≤
            List.countP (fun u => decide (u.typ = -1) && decide (u.off ≤ t.off)) (pre ++ [t]) := by
          apply List.countP_mono_left
          intro u hu hk
          rw [List.mem_append] at hu
          rcases hu with hu | hu
          · simp [hpre u hu]; simpa using hk
          · obtain rfl : u = t := by simpa using hu
            simpa using hk
        unfold edges
        omega
      have k2 : s.countP (fun u => decide (u.typ = 1) && decide (u.off < t.off)) ≤ edges 1 (pre ++ [t]) := by
        rw [e, List.countP_append, List.countP_cons]
        unfold edges
        rw [List.countP_append]
        have z : List.countP (fun u : Tuple => decide (u.typ = 1) && decide (u.off < t.off)) post = 0 := by
          rw [List.countP_eq_zero]; intro u hu; have := hpost u hu; simp; intro _; omega
        have m : List.countP (fun u : Tuple => decide (u.typ = 1) && decide (u.off < t.off)) pre ≤
            List.countP (fun u => decide (u.typ = 1)) pre :=
          List.countP_mono_left (fun u _ hk => by simp at hk ⊢; exact hk.1)
        simp [z]; omega
      unfold cont
      omega
    · obtain ⟨q, c1, c2, c3⟩ := cont_eq ty ap x
      rw [c1]
      have hf : s.filter q = pre.filter q := by
        rw [e, List.filter_append]
        suffices h0 : (t :: post).filter q = [] by rw [h0, List.append_nil]
        rw [List.filter_eq_nil_iff]
        intro u hu hv
        have := c3 u hv
        rcases List.mem_cons.1 hu with rfl | hu
        · omega
        · have := hpost u hu; omega
      rw [hf]
      refine lt_of_prefix hn e3 (filter_prefix ?_ c2)
      have := so
      rw [e, Sorted, List.pairwise_append] at this
      exact this.1
  · right
    refine ⟨e1, fun x => ?_⟩
    obtain ⟨q, c1, c2, _⟩ := cont_eq ty ap x
    rw [c1]
    exact lt_of_prefix hn e3 (filter_prefix so c2)

/-- Mirrored. -/
def flip (t : Tuple) : Tuple := ⟨-t.off, -t.typ⟩

theorem scan_flip (need : Int) : ∀ (s : List Tuple) (en mid : Int),
    scan (-1) need (s.map flip) en mid = ((scan 1 need s en mid).1.map fun x => -x, (scan 1 need s en mid).2) := by
  intro s
  induction s with
  | nil => intro en mid; rfl
  | cons t ts ih =>
    intro en mid
    simp only [List.map_cons, scan, flip]
    rw [show en + -1 * -t.typ = en + 1 * t.typ by omega]
    split
    · rfl
    · have : (if -t.typ = 0 then mid + 1 else mid) = if t.typ = 0 then mid + 1 else mid := by split_ifs <;> omega
      rw [this]
      exact ih _ _

theorem cont_flip {s : List Tuple} (he : edges (-1) s = edges 1 s) (x : Int) : cont (s.reverse.map flip) (-x) = cont s x := by
  have key : ∀ (k : Int) (p : Tuple → Bool), s.countP (fun t => decide (t.typ = k) && p t) +
      s.countP (fun t => decide (t.typ = k) && !p t) = edges k s := by
    intro k p
    clear he
    unfold edges
    induction s with
    | nil => rfl
    | cons t ts ih =>
      simp only [List.countP_cons]
      by_cases h1 : t.typ = k <;> cases h2 : p t <;> simp [h1] <;> omega
  have k1 := key (-1) fun t => decide (t.off ≤ x)
  have k2 := key 1 fun t => decide (t.off < x)
  unfold cont
  rw [List.countP_map, List.countP_map, List.countP_reverse, List.countP_reverse]
  have e1 : s.countP ((fun t : Tuple => decide (t.typ = -1) && decide (t.off ≤ -x)) ∘ flip) =
      s.countP (fun t => decide (t.typ = 1) && !decide (t.off < x)) := by
    apply List.countP_congr
    intro u _
    simp [flip]
  have e2 : s.countP ((fun t : Tuple => decide (t.typ = 1) && decide (t.off < -x)) ∘ flip) =
      s.countP (fun t => decide (t.typ = -1) && !decide (t.off ≤ x)) := by
    apply List.countP_congr
    intro u _
    show (decide (-u.typ = 1) && decide (-u.off < -x)) = true ↔ (decide (u.typ = -1) && !decide (u.off ≤ x)) = true
    simp only [Bool.and_eq_true, decide_eq_true_eq, Bool.not_eq_true', decide_eq_false_iff_not]
    omega
  rw [e1, e2]
  omega

theorem scan_down_exact {s : List Tuple} (ty : Typed s) (so : Sorted s) (ap : Apart s) (he : edges (-1) s = edges 1 s) {need : Int}
    (hn : 0 < need) (mid : Int) :
    (∃ b, scan 1 need s.reverse 0 mid = (some b, mid + s.countP fun t => decide (t.typ = 0) && decide (b < t.off)) ∧ need ≤ cont s b ∧
      ∀ x, b < x → cont s x < need) ∨
    (scan 1 need s.reverse 0 mid = (none, mid + zeros s) ∧ ∀ x, cont s x < need) := by
  have ty' : Typed (s.reverse.map flip) := by
    intro t ht
    obtain ⟨u, hu, rfl⟩ := List.mem_map.1 ht
    have := ty u (by simpa using hu)
    simp only [flip]
    omega
  have so' : Sorted (s.reverse.map flip) := by
    unfold Sorted at so ⊢
    rw [List.pairwise_map, List.pairwise_reverse]
    exact so.imp fun h => by simp only [flip]; omega
  have ap' : Apart (s.reverse.map flip) := by
    intro t ht u hu e
    obtain ⟨t', ht', rfl⟩ := List.mem_map.1 ht
    obtain ⟨u', hu', rfl⟩ := List.mem_map.1 hu
    have := ap t' (by simpa using ht') u' (by simpa using hu') (by simp only [flip] at e; omega)
    simp only [flip]
    omega
  have hz : zeros (s.reverse.map flip) = zeros s := by
    unfold zeros
    rw [List.countP_map, List.countP_reverse]
    apply List.countP_congr
    intro u _
    simp [flip]
  rcases scan_up_exact ty' so' ap' hn mid with ⟨a, h1, h2, h3⟩ | ⟨h1, h2⟩
  · left
    rw [scan_flip, Prod.mk.injEq] at h1
    obtain ⟨g1, g2⟩ := h1
    obtain ⟨b, gb, rfl⟩ := Option.map_eq_some_iff.1 g1
    refine ⟨b, Prod.ext gb ?_, ?_, fun x hx => ?_⟩
    · rw [g2]
      congr 2
      rw [List.countP_map, List.countP_reverse]
      apply List.countP_congr
      intro u _
      simp [flip]
    · rw [← cont_flip he]; exact h2
    · rw [← cont_flip he]; exact h3 _ (by omega)
  · right
    rw [scan_flip, Prod.mk.injEq] at h1
    obtain ⟨g1, g2⟩ := h1
    refine ⟨Prod.ext (Option.map_eq_none_iff.1 g1) (by rw [g2, hz]), fun x => ?_⟩
    rw [← cont_flip he]; exact h2 _

theorem containing_eq {is : List Interval} (h : ∀ i ∈ is, Sane i) (x : Int) :
    (containing is x : Int) = is.countP (fun i => decide (i.low ≤ x)) - is.countP (fun i => decide (i.up < x)) := by
  unfold containing
  induction is with
  | nil => simp
  | cons i is ih =>
    have i1 := ih fun u hu => h u (List.mem_cons_of_mem _ hu)
    have hb := (h i (List.mem_cons_self ..)).1
    have hl : i.low ≤ i.up := by unfold Interval.low Interval.up; omega
    simp only [List.countP_cons, decide_eq_true_eq]
    split_ifs <;> omega

theorem cont_containing {is : List Interval} (h : ∀ i ∈ is, Sane i) {s : List Tuple} (hp : s.Perm (tuples is)) (x : Int) :
    cont s x = containing is x := by
  rw [containing_eq h, cont, hp.countP_eq, hp.countP_eq, (count_tuples h fun y => decide (y ≤ x)).1,
    (count_tuples h fun y => decide (y < x)).2.2]

end Verif.InterExact
