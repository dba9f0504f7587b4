import Verif.InterExact.Lemmas
/-!
# C109: the answer of `Intersection`, exactly
-/
namespace Verif.InterExact
open Verif.Go Verif.Inter

/-- `[a, b]` spans the points in all but `F` of the intervals, and all but `F` of the midpoints lie in it. -/
def Span (is : List Interval) (F : Nat) (a b : Int) : Prop :=
  IsLeast {x | is.length ≤ containing is x + F} a ∧ IsGreatest {x | is.length ≤ containing is x + F} b ∧ outside is a b ≤ F

/-- `r` is right if faults are tried below `L`: the span for the smallest number of faults that has one. -/
def Right (is : List Interval) (L : Nat) (r : Int × Int × Bool) : Prop :=
  (r.2.2 = true → ∃ F, F < L ∧ Span is F r.1 r.2.1 ∧ ∀ F' < F, ∀ a b, ¬ Span is F' a b) ∧
  (r.2.2 = false → ∀ F < L, ∀ a b, ¬ Span is F a b)

/-- One round of the loop. -/
theorem round {is : List Interval} (hs : ∀ i ∈ is, Sane i) (ht : NoTies is) {s : List Tuple} (hso : SortedTo (tuples is) s)
    {f : Nat} (hf : f < is.length) :
    (∃ a b mid, scan (-1) (is.length - f) s 0 0 = (some a, mid) ∧
      scan 1 (is.length - f) s.reverse 0 mid = (some b, (outside is a b : Int)) ∧ a ≤ b ∧
      IsLeast {x | is.length ≤ containing is x + f} a ∧ IsGreatest {x | is.length ≤ containing is x + f} b) ∨
    ((∀ m, (scan 1 (is.length - f) s.reverse 0 m).2 = m + is.length) ∧ (scan (-1) (is.length - f) s 0 0).2 = is.length ∧
      ∀ x, containing is x + f < is.length) := by
  have ty : Typed s := fun u hu => typed_tuples is u (hso.1.subset hu)
  have so : Sorted s := hso.2.imp fun h => by simpa [less] using h
  have ap : Apart s := fun t h u h' e => ht t (hso.1.subset h) u (hso.1.subset h') e
  obtain ⟨z0, z1, z2⟩ := zeros_sorted hs hso
  have hc := cont_containing hs hso.1
  have hmid : ∀ q : Int → Bool, s.countP (fun t => decide (t.typ = 0) && q t.off) = is.countP fun i => q i.off := by
    intro q; rw [hso.1.countP_eq, (count_tuples hs q).2.1]
  rcases scan_up_exact ty so ap (need := is.length - f) (by omega) 0 with ⟨a, h1, h2, h3⟩ | ⟨h1, h2⟩
  · rcases scan_down_exact ty so ap (z1.trans z2.symm) (need := is.length - f) (by omega)
        (0 + s.countP fun t => decide (t.typ = 0) && decide (t.off < a) : Int) with ⟨b, g1, g2, g3⟩ | ⟨g1, g2⟩
    · left
      have la : IsLeast {x | is.length ≤ containing is x + f} a := by
        refine ⟨by rw [hc] at h2; simp only [Set.mem_ofPred_eq]; omega, fun x hx => ?_⟩
        simp only [Set.mem_ofPred_eq] at hx
        by_contra hn
        have := h3 x (by omega)
        rw [hc] at this
        omega
      have gb : IsGreatest {x | is.length ≤ containing is x + f} b := by
        refine ⟨by rw [hc] at g2; simp only [Set.mem_ofPred_eq]; omega, fun x hx => ?_⟩
        simp only [Set.mem_ofPred_eq] at hx
        by_contra hn
        have := g3 x (by omega)
        rw [hc] at this
        omega
      have hab : a ≤ b := la.2 gb.1
      refine ⟨a, b, _, h1, ?_, hab, la, gb⟩
      rw [g1, outside_eq is hab, hmid fun x => decide (x < a), hmid fun x => decide (b < x)]
      simp
    · have := g2 a
      omega
  · right
    refine ⟨fun m => ?_, by rw [h1, z0]; simp, fun x => ?_⟩
    · rcases scan_down_exact ty so ap (z1.trans z2.symm) (need := is.length - f) (by omega) m with ⟨b, _, g2, _⟩ | ⟨g1, _⟩
      · have := h2 b
        omega
      · rw [g1, z0]
    · have := h2 x
      rw [hc] at this
      omega

theorem search_right {is : List Interval} (hs : ∀ i ∈ is, Sane i) (ht : NoTies is) {s : List Tuple} (hso : SortedTo (tuples is) s) :
    ∀ (k : Nat) (lo up : Int), k ≤ is.length / 2 → (∀ F < is.length / 2 - k, ∀ a b, ¬ Span is F a b) →
      Right is (is.length / 2) (search s is.length k lo up) := by
  intro k
  induction k with
  | zero =>
    intro lo up _ h
    exact ⟨fun h0 => by simp [search] at h0, fun _ => h⟩
  | succ k ih =>
    intro lo up hk h
    simp only [search]
    have next : (∀ a b, ¬ Span is (is.length / 2 - (k + 1)) a b) → ∀ F < is.length / 2 - k, ∀ a b, ¬ Span is F a b := by
      intro hn F hF
      by_cases hF' : F < is.length / 2 - (k + 1)
      · exact h F hF'
      · obtain rfl : F = is.length / 2 - (k + 1) := by omega
        exact hn
    rcases round hs ht hso (f := is.length / 2 - (k + 1)) (by omega) with ⟨a, b, mid, h1, h2, hab, la, gb⟩ | ⟨h1, h2, h3⟩
    · rw [h1]
      simp only [h2, Option.getD_some]
      by_cases ho : outside is a b ≤ is.length / 2 - (k + 1)
      · rw [if_pos ⟨hab, by omega⟩]
        exact ⟨fun _ => ⟨_, by omega, ⟨la, gb, ho⟩, h⟩, fun h0 => by cases h0⟩
      · rw [if_neg (by omega)]
        refine ih _ _ (by omega) (next fun a' b' ⟨la', gb', ho'⟩ => ?_)
        rw [la'.unique la, gb'.unique gb] at ho'
        exact ho ho'
    · rw [h1, h2, if_neg (by omega)]
      refine ih _ _ (by omega) (next fun a' b' ⟨la', _, _⟩ => ?_)
      have := h3 a'
      have := la'.1
      simp only [Set.mem_ofPred_eq] at this
      omega

/-- The full statement: faults are tried as long as the others are a majority. -/
def C109_full : Prop := ∀ (is : List Interval) (r : Int × Int × Bool), (∀ i ∈ is, Sane i) → NoTies is → 2 ≤ is.length →
  Intersection is r → Right is ((is.length + 1) / 2) r

/-- **C109** (partial.) The answer is the span of the points in all but `F` of the intervals, for the smallest `F` for which all but
`F` midpoints lie in it, and there is none only if no such `F` is below half the number of intervals rounded down. Missing: the
`F` that leaves a majority of one, for which it is false (`C109_refuted`), and coinciding edges (see C46). -/
theorem C109_partial {is : List Interval} (hs : ∀ i ∈ is, Sane i) (ht : NoTies is) (h2 : 2 ≤ is.length) {r : Int × Int × Bool}
    (h : Intersection is r) : Right is (is.length / 2) r := by
  cases h with
  | one i => simp at h2
  | many _ s _ hso =>
    have hlen : s.length / 3 = is.length := by rw [hso.1.length_eq, length_tuples]; omega
    rw [intersection, hlen]
    exact search_right hs ht hso _ _ _ (Nat.le_refl _) (fun F hF => by omega)

/-- With an even number of intervals that is the full statement. -/
theorem C109_even {is : List Interval} (hs : ∀ i ∈ is, Sane i) (ht : NoTies is) (h2 : 2 ≤ is.length) (he : is.length % 2 = 0)
    {r : Int × Int × Bool} (h : Intersection is r) : Right is ((is.length + 1) / 2) r := by
  rw [show (is.length + 1) / 2 = is.length / 2 by omega]
  exact C109_partial hs ht h2 h

/-- **C109** is false of the code: of three intervals two agree, and no agreement is reported. -/
theorem C109_refuted : ¬ C109_full := by
  intro h
  have r := run_possible [⟨0, 10⟩, ⟨1, 8⟩, ⟨100, 3⟩]
  have := (h [⟨0, 10⟩, ⟨1, 8⟩, ⟨100, 3⟩] _ (by unfold Sane InInt64; decide) (by unfold NoTies; decide) (by decide) r).2 (by decide) 1
    (by decide) (-7) 9
  apply this
  have hc : ∀ x, containing [⟨0, 10⟩, ⟨1, 8⟩, ⟨100, 3⟩] x = (if -10 ≤ x ∧ x ≤ 10 then 1 else 0) + (if -7 ≤ x ∧ x ≤ 9 then 1 else 0) +
      if 97 ≤ x ∧ x ≤ 103 then 1 else 0 := by
    intro x
    simp only [containing, List.countP_cons, List.countP_nil, Interval.low, Interval.up, decide_eq_true_eq]
    norm_num
    split_ifs <;> omega
  refine ⟨⟨by decide, fun x hx => ?_⟩, ⟨by decide, fun x hx => ?_⟩, by decide⟩ <;>
  · simp only [Set.mem_ofPred_eq, hc, List.length_cons, List.length_nil] at hx
    split_ifs at hx <;> omega

/-- Non-vacuity of `C109_partial`: four intervals with one fault, and three in which no two agree. -/
example : (∀ i ∈ [(⟨0, 10⟩ : Interval), ⟨1, 8⟩, ⟨100, 3⟩, ⟨2, 6⟩], Sane i) ∧ NoTies [⟨0, 10⟩, ⟨1, 8⟩, ⟨100, 3⟩, ⟨2, 6⟩] ∧
    run [⟨0, 10⟩, ⟨1, 8⟩, ⟨100, 3⟩, ⟨2, 6⟩] = (-4, 8, true) ∧ (run [⟨0, 3⟩, ⟨10, 4⟩, ⟨20, 5⟩]).2.2 = false := by
  unfold Sane InInt64 NoTies; decide

end Verif.InterExact
