import Verif.InterMove.Spec
import Verif.Inter.Props
/-!
# Lemmas for C131
-/
namespace Verif.InterMove
open Verif.Inter Verif.Go

/-- A tuple on the other clock: a bound that was a lower one is an upper one when the clock runs backwards. -/
def move (c d : Int) (t : Tuple) : Tuple := ⟨c * t.off + d, c.sign * t.typ⟩

theorem scan_mid (sgn need : Int) : ∀ (s : List Tuple) (en mid : Int),
    (scan sgn need s en mid).1 = (scan sgn need s en 0).1 ∧ (scan sgn need s en mid).2 = mid + (scan sgn need s en 0).2 := by
  intro s
  induction s with
  | nil => intro en mid; simp [scan]
  | cons t ts ih =>
    intro en mid
    simp only [scan]
    split
    · simp
    · split
      · obtain ⟨h1, h2⟩ := ih (en + sgn * t.typ) (mid + 1)
        obtain ⟨h3, h4⟩ := ih (en + sgn * t.typ) (0 + 1)
        exact ⟨by rw [h1, h3], by rw [h2, h4]; omega⟩
      · exact ih _ _

theorem scan_none (sgn need : Int) : ∀ (s : List Tuple) (en mid : Int), (scan sgn need s en mid).1 = none →
    (scan sgn need s en mid).2 = mid + zeros s := by
  intro s
  induction s with
  | nil => intro en mid _; simp [scan, zeros]
  | cons t ts ih =>
    intro en mid h
    simp only [scan] at h ⊢
    split at h
    · cases h
    · rename_i hn
      rw [if_neg hn, ih _ _ h]
      by_cases h0 : t.typ = 0
      · simp [h0, zeros]; omega
      · simp [h0, zeros]

theorem scan_mono (sgn need : Int) (s : List Tuple) (en mid : Int) : mid ≤ (scan sgn need s en mid).2 := by
  induction s generalizing en mid with
  | nil => simp [scan]
  | cons t ts ih =>
    simp only [scan]
    split
    · exact Int.le_refl _
    · have := ih (en + sgn * t.typ) (if t.typ = 0 then mid + 1 else mid)
      split at this <;> split <;> omega

theorem scan_move {c d : Int} (hc : c ≠ 0) (sgn need : Int) : ∀ (s : List Tuple) (en mid : Int),
    scan (sgn * c.sign) need (s.map (move c d)) en mid =
      ((scan sgn need s en mid).1.map (fun x => c * x + d), (scan sgn need s en mid).2) := by
  have hsg : c.sign * c.sign = 1 := by
    rcases Int.lt_trichotomy c 0 with h | h | h
    · rw [Int.sign_eq_neg_one_of_neg h]; rfl
    · exact absurd h hc
    · rw [Int.sign_eq_one_of_pos h]; rfl
  have hz : ∀ x, c.sign * x = 0 ↔ x = 0 := fun x => by
    rw [Int.mul_eq_zero, Int.sign_eq_zero_iff_zero]; simp [hc]
  intro s
  induction s with
  | nil => intro en mid; rfl
  | cons t ts ih =>
    intro en mid
    have e : sgn * c.sign * (c.sign * t.typ) = sgn * t.typ := by
      rw [Int.mul_assoc, ← Int.mul_assoc c.sign, hsg, Int.one_mul]
    simp only [List.map_cons, scan, move, e, hz]
    split
    · rfl
    · exact ih _ _

/-- The arrangement of the tuples on the other clock. -/
def arrange (c d : Int) (s : List Tuple) : List Tuple := if 0 < c then s.map (move c d) else (s.map (move c d)).reverse

/-- One round finds nothing, or finds both bounds. -/
theorem round_some {s : List Tuple} {m f : Nat} (hz : zeros s = m) (hf : f < m / 2)
    (h : (scan 1 (m - f) s.reverse 0 (scan (-1) (m - f) s 0 0).2).2 ≤ f) :
    (∃ x, (scan (-1) (m - f) s 0 0).1 = some x) ∧ ∃ y, (scan 1 (m - f) s.reverse 0 (scan (-1) (m - f) s 0 0).2).1 = some y := by
  have hr : zeros s.reverse = m := by rw [← hz]; simp [zeros]
  constructor
  · cases hx : (scan (-1) (m - f) s 0 0).1 with
    | some x => exact ⟨x, rfl⟩
    | none =>
      have h1 := scan_none _ _ _ _ _ hx
      have h2 := scan_mono 1 (m - f) s.reverse 0 (scan (-1) (m - f) s 0 0).2
      rw [h1, hz] at h2
      rw [h1, hz] at h
      omega
  · cases hy : (scan 1 (m - f) s.reverse 0 (scan (-1) (m - f) s 0 0).2).1 with
    | some y => exact ⟨y, rfl⟩
    | none =>
      have h1 := scan_none _ _ _ _ _ hy
      have h2 := scan_mono (-1) (m - f) s 0 0
      rw [hr] at h1
      omega

theorem search_move {c d : Int} (hc : c ≠ 0) {s : List Tuple} {m : Nat} (hz : zeros s = m) :
    ∀ (k : Nat) (lo up lo' up' : Int), k ≤ m / 2 → SameResult c d (search s m k lo up) (search (arrange c d s) m k lo' up') := by
  intro k
  induction k with
  | zero => intro lo up lo' up' _; simp [search, SameResult]
  | succ k ih =>
    intro lo up lo' up' hk
    have hf : m / 2 - (k + 1) < m / 2 := by omega
    simp only [search]
    generalize m / 2 - (k + 1) = f at *
    have rs := round_some (f := f) hz hf
    rcases Int.lt_trichotomy c 0 with h | h | h
    · -- backwards
      have ha : arrange c d s = (s.map (move c d)).reverse := by simp [arrange, Int.not_lt.2 (Int.le_of_lt h)]
      have hsg := Int.sign_eq_neg_one_of_neg h
      have e1 : scan (-1) (m - f) (arrange c d s) 0 0 = ((scan 1 (m - f) s.reverse 0 0).1.map (fun x => c * x + d), (scan 1 (m - f) s.reverse 0 0).2) := by
        rw [ha, ← List.map_reverse, ← scan_move hc, hsg]; rfl
      have e2 : ∀ mid, scan 1 (m - f) (arrange c d s).reverse 0 mid = ((scan (-1) (m - f) s 0 mid).1.map (fun x => c * x + d), (scan (-1) (m - f) s 0 mid).2) := by
        intro mid
        rw [ha, List.reverse_reverse, ← scan_move hc, hsg]; rfl
      rw [e1]
      simp only [e2]
      obtain ⟨m1, m2⟩ := scan_mid 1 (m - f) s.reverse 0 (scan (-1) (m - f) s 0 0).2
      obtain ⟨m3, m4⟩ := scan_mid (-1) (m - f) s 0 (scan 1 (m - f) s.reverse 0 0).2
      rw [m1, m2] at rs
      rw [m1, m2, m3, m4]
      by_cases hm : (scan (-1) (m - f) s 0 0).2 + (scan 1 (m - f) s.reverse 0 0).2 ≤ f
      · obtain ⟨⟨x, hx⟩, y, hy⟩ := rs hm
        have hm' : (scan 1 (m - f) s.reverse 0 0).2 + (scan (-1) (m - f) s 0 0).2 ≤ f := by omega
        simp only [hx, hy, hm, hm', Option.map_some, Option.getD_some, and_true]
        by_cases hxy : x ≤ y
        · have : c * y + d ≤ c * x + d := by nlinarith
          rw [if_pos hxy, if_pos this]
          exact ⟨rfl, fun _ => ⟨fun h' => absurd h' (by omega), fun _ => ⟨rfl, rfl⟩⟩⟩
        · have : ¬ c * y + d ≤ c * x + d := by intro hh; apply hxy; nlinarith
          rw [if_neg hxy, if_neg this]
          exact ih _ _ _ _ (by omega)
      · have hm' : ¬ (scan 1 (m - f) s.reverse 0 0).2 + (scan (-1) (m - f) s 0 0).2 ≤ f := by omega
        simp only [hm, hm', and_false, if_false]
        exact ih _ _ _ _ (by omega)
    · exact absurd h hc
    · have ha : arrange c d s = s.map (move c d) := by simp [arrange, h]
      have hsg := Int.sign_eq_one_of_pos h
      have e1 : ∀ mid, scan (-1) (m - f) (arrange c d s) 0 mid = ((scan (-1) (m - f) s 0 mid).1.map (fun x => c * x + d), (scan (-1) (m - f) s 0 mid).2) := by
        intro mid
        rw [ha, ← scan_move hc, hsg]; rfl
      have e2 : ∀ mid, scan 1 (m - f) (arrange c d s).reverse 0 mid = ((scan 1 (m - f) s.reverse 0 mid).1.map (fun x => c * x + d), (scan 1 (m - f) s.reverse 0 mid).2) := by
        intro mid
        rw [ha, ← List.map_reverse, ← scan_move hc, hsg]; rfl
      simp only [e1, e2]
      by_cases hm : (scan 1 (m - f) s.reverse 0 (scan (-1) (m - f) s 0 0).2).2 ≤ f
      · obtain ⟨⟨x, hx⟩, y, hy⟩ := rs hm
        simp only [hx, hy, hm, Option.map_some, Option.getD_some, and_true]
        by_cases hxy : x ≤ y
        · have : c * x + d ≤ c * y + d := by nlinarith
          rw [if_pos hxy, if_pos this]
          exact ⟨rfl, fun _ => ⟨fun _ => ⟨rfl, rfl⟩, fun h' => absurd h' (by omega)⟩⟩
        · have : ¬ c * x + d ≤ c * y + d := by intro hh; apply hxy; nlinarith
          rw [if_neg hxy, if_neg this]
          exact ih _ _ _ _ (by omega)
      · simp only [hm, and_false, if_false]
        exact ih _ _ _ _ (by omega)

theorem abs_pos {c : Int} (h : 0 < c) : (c.natAbs : Int) = c := by omega
theorem abs_neg {c : Int} (h : c < 0) : (c.natAbs : Int) = -c := by omega

/-- The tuples of the moved intervals are the moved tuples. -/
theorem tuples_move {c d : Int} (hc : c ≠ 0) {is : List Interval} (hs : ∀ i ∈ is, Sane i) (hs' : ∀ i ∈ is, Sane (onClock c d i)) :
    (tuples (is.map (onClock c d))).Perm ((tuples is).map (move c d)) := by
  induction is with
  | nil => exact .refl _
  | cons i is ih =>
    have ih := ih (fun j hj => hs j (List.mem_cons_of_mem _ hj)) (fun j hj => hs' j (List.mem_cons_of_mem _ hj))
    obtain ⟨_, a1, a2⟩ := hs i (List.mem_cons_self ..)
    obtain ⟨_, b1, b2⟩ := hs' i (List.mem_cons_self ..)
    have e1 : wrap64 (i.off - i.band) = i.off - i.band := wrap64_of_in a1
    have e2 : wrap64 (i.off + i.band) = i.off + i.band := wrap64_of_in a2
    have e3 : wrap64 ((onClock c d i).off - (onClock c d i).band) = (onClock c d i).off - (onClock c d i).band := wrap64_of_in b1
    have e4 : wrap64 ((onClock c d i).off + (onClock c d i).band) = (onClock c d i).off + (onClock c d i).band := wrap64_of_in b2
    have rev3 : ∀ (x y z : Tuple) {l l' : List Tuple}, l.Perm l' → (x :: y :: z :: l).Perm (z :: y :: x :: l') := fun x y z _ _ h =>
      (List.reverse_perm [z, y, x]).append h
    simp only [onClock] at e3 e4
    simp only [List.map_cons, tuples, e1, e2, move]
    simp only [onClock, e3, e4]
    rcases Int.lt_trichotomy c 0 with h | h | h
    · rw [Int.sign_eq_neg_one_of_neg h, abs_neg h]
      have k1 : c * i.off + d - -c * i.band = c * (i.off + i.band) + d := by ring
      have k2 : c * i.off + d + -c * i.band = c * (i.off - i.band) + d := by ring
      rw [k1, k2]
      exact rev3 _ _ _ ih
    · exact absurd h hc
    · rw [Int.sign_eq_one_of_pos h, abs_pos h]
      have k1 : c * i.off + d - c * i.band = c * (i.off - i.band) + d := by ring
      have k2 : c * i.off + d + c * i.band = c * (i.off + i.band) + d := by ring
      rw [k1, k2]
      exact .cons _ (.cons _ (.cons _ ih))

theorem sorted_iff {a b : Tuple} : less b a = false ↔ a.off ≤ b.off := by simp [less]

/-- An arrangement of the tuples, moved. -/
theorem arrange_sorted {c d : Int} (hc : c ≠ 0) {is : List Interval} (hs : ∀ i ∈ is, Sane i) (hs' : ∀ i ∈ is, Sane (onClock c d i))
    {s : List Tuple} (h : SortedTo (tuples is) s) : SortedTo (tuples (is.map (onClock c d))) (arrange c d s) := by
  obtain ⟨h1, h2⟩ := h
  have hp := (h1.map (move c d)).trans (tuples_move hc hs hs').symm
  unfold arrange
  rcases Int.lt_trichotomy c 0 with h | h | h
  · rw [if_neg (by omega)]
    refine ⟨(List.reverse_perm _).trans hp, ?_⟩
    rw [List.pairwise_reverse, List.pairwise_map]
    refine h2.imp fun hab => ?_
    rw [sorted_iff] at hab ⊢
    simp only [move]
    nlinarith
  · exact absurd h hc
  · rw [if_pos h]
    refine ⟨hp, ?_⟩
    rw [List.pairwise_map]
    refine h2.imp fun hab => ?_
    rw [sorted_iff] at hab ⊢
    simp only [move]
    nlinarith

/-- Every arrangement of the moved tuples is a moved arrangement. -/
theorem arrange_onto {c d : Int} (hc : c ≠ 0) {is : List Interval} (hs : ∀ i ∈ is, Sane i) (hs' : ∀ i ∈ is, Sane (onClock c d i))
    {s' : List Tuple} (h : SortedTo (tuples (is.map (onClock c d))) s') : ∃ s, SortedTo (tuples is) s ∧ arrange c d s = s' := by
  obtain ⟨h1, h2⟩ := h
  let back : Tuple → Tuple := fun t => ⟨(t.off - d) / c, c.sign * t.typ⟩
  have hb : ∀ t, back (move c d t) = t := fun t => by
    have hsg : c.sign * c.sign = 1 := by
      rcases Int.lt_trichotomy c 0 with h | h | h
      · rw [Int.sign_eq_neg_one_of_neg h]; rfl
      · exact absurd h hc
      · rw [Int.sign_eq_one_of_pos h]; rfl
    simp only [back, move]
    rw [show c * t.off + d - d = c * t.off by omega, Int.mul_ediv_cancel_left _ hc, ← Int.mul_assoc, hsg, Int.one_mul]
  have hp := h1.trans (tuples_move hc hs hs')
  have hfix : ∀ t ∈ s', move c d (back t) = t := fun t ht => by
    obtain ⟨u, _, rfl⟩ := List.mem_map.1 (hp.subset ht)
    rw [hb]
  have hmap : (s'.map back).map (move c d) = s' := by
    rw [List.map_map]
    conv_rhs => rw [← List.map_id s']
    exact List.map_congr_left hfix
  have hperm : (s'.map back).Perm (tuples is) := by
    have := hp.map back
    rw [List.map_map] at this
    have e : (tuples is).map (back ∘ move c d) = tuples is := by
      conv_rhs => rw [← List.map_id (tuples is)]
      exact List.map_congr_left fun t _ => hb t
    rwa [e] at this
  rcases Int.lt_trichotomy c 0 with h | h | h
  · refine ⟨(s'.map back).reverse, ⟨(List.reverse_perm _).trans hperm, ?_⟩, ?_⟩
    · rw [List.pairwise_reverse]
      rw [← hmap, List.pairwise_map] at h2
      refine h2.imp fun hab => ?_
      rw [sorted_iff] at hab ⊢
      simp only [move] at hab
      nlinarith
    · unfold arrange
      rw [if_neg (by omega), List.map_reverse, List.reverse_reverse, hmap]
  · exact absurd h hc
  · refine ⟨s'.map back, ⟨hperm, ?_⟩, ?_⟩
    · rw [← hmap, List.pairwise_map] at h2
      refine h2.imp fun hab => ?_
      rw [sorted_iff] at hab ⊢
      simp only [move] at hab
      nlinarith
    · unfold arrange
      rw [if_pos h, hmap]

theorem intersection_move {c d : Int} (hc : c ≠ 0) {is : List Interval} (hs : ∀ i ∈ is, Sane i) {s : List Tuple}
    (h : SortedTo (tuples is) s) : SameResult c d (intersection s) (intersection (arrange c d s)) := by
  have hl : (arrange c d s).length = s.length := by unfold arrange; split <;> simp
  have hlen : s.length / 3 = is.length := by rw [h.1.length_eq, length_tuples]; omega
  have hz : zeros s = s.length / 3 := by rw [hlen]; exact (zeros_sorted hs h).1
  unfold intersection
  rw [hl]
  exact search_move hc hz _ _ _ _ _ (Nat.le_refl _)

theorem one_move {c d : Int} (hc : c ≠ 0) {i : Interval} (hs : Sane i) (hs' : Sane (onClock c d i)) :
    SameResult c d (wrap64 (i.off - i.band), wrap64 (i.off + i.band), true)
      (wrap64 ((onClock c d i).off - (onClock c d i).band), wrap64 ((onClock c d i).off + (onClock c d i).band), true) := by
  rw [show wrap64 (i.off - i.band) = i.off - i.band from wrap64_of_in hs.2.1,
    show wrap64 (i.off + i.band) = i.off + i.band from wrap64_of_in hs.2.2,
    show wrap64 ((onClock c d i).off - (onClock c d i).band) = (onClock c d i).off - (onClock c d i).band from wrap64_of_in hs'.2.1,
    show wrap64 ((onClock c d i).off + (onClock c d i).band) = (onClock c d i).off + (onClock c d i).band from wrap64_of_in hs'.2.2]
  refine ⟨rfl, fun _ => ⟨fun h => ?_, fun h => ?_⟩⟩
  · simp only [onClock, abs_pos h]; constructor <;> ring
  · simp only [onClock, abs_neg h]; constructor <;> ring

end Verif.InterMove
