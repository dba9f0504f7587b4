import Verif.InterTrue.Lemmas
/-!
# C147: a minority of wrong clocks
-/
namespace Verif.InterTrue
open Verif.Go Verif.Inter Verif.InterExact

/-- The full statement: if more than half of the clocks are right, the true time is in the interval reported. -/
def C147_full : Prop := ∀ (is : List Interval) (t a b : Int), (∀ i ∈ is, Sane i) → Majority is t → Intersection is (a, b, true) →
  a ≤ t ∧ t ≤ b

/-- **C147 is false**: two clocks have the true time 5; the third does not, but has times in common with both, and `[-3, 3]` is
reported. -/
theorem C147_refuted : ¬ C147_full := by
  intro h
  have r := run_possible [⟨0, 10⟩, ⟨1, 10⟩, ⟨0, 3⟩]
  rw [show run [⟨0, 10⟩, ⟨1, 10⟩, ⟨0, 3⟩] = (-3, 3, true) by decide] at r
  have := h [⟨0, 10⟩, ⟨1, 10⟩, ⟨0, 3⟩] 5 (-3) 3 (by unfold Sane InInt64; decide) (by decide) r
  omega

/-- **C147, how far off it can be**: if more than half are right, then both ends of what is reported are times that one of the right
clocks has, whatever the wrong clocks say and in whatever order the sort leaves equal offsets. -/
theorem C147_ends {is : List Interval} (hs : ∀ i ∈ is, Sane i) {t : Int} (hm : Majority is t) {a b : Int}
    (h : Intersection is (a, b, true)) :
    a ≤ b ∧ (∃ i ∈ is, Tells i t ∧ Tells i a) ∧ ∃ j ∈ is, Tells j t ∧ Tells j b := by
  have hp : ∃ j ∈ is, Tells j t := by
    have : 0 < right is t := by unfold Majority at hm; omega
    simpa using List.countP_pos_iff.1 this
  by_cases h2 : 2 ≤ is.length
  · obtain ⟨hab, F, h1, h3, h4, _⟩ := C44_sound hs h2 h
    unfold Majority at hm
    rw [right_eq] at hm
    obtain ⟨i, hi, i1, i2⟩ := common (is := is) (p := fun i => decide (i.low ≤ t ∧ t ≤ i.up))
      (q := fun i => decide (i.low ≤ a ∧ a ≤ i.up)) (by unfold containing at *; omega)
    obtain ⟨j, hj, j1, j2⟩ := common (is := is) (p := fun i => decide (i.low ≤ t ∧ t ≤ i.up))
      (q := fun i => decide (i.low ≤ b ∧ b ≤ i.up)) (by unfold containing at *; omega)
    exact ⟨hab, ⟨i, hi, by simpa [Tells] using i1, by simpa [Tells] using i2⟩, j, hj, by simpa [Tells] using j1, by simpa [Tells] using j2⟩
  · obtain ⟨j, hj, ht⟩ := hp
    match is, hj, h2, hs, h with
    | [k], hj, _, hs, h =>
      obtain rfl : j = k := by simpa using hj
      have e := (C45_few.2 j (hs j (by simp)) _ h)
      simp only [Prod.mk.injEq, and_true] at e
      obtain ⟨rfl, rfl⟩ := e
      have hb := (hs j (by simp)).1
      have hl : j.low ≤ j.up := by unfold Interval.low Interval.up; omega
      exact ⟨hl, ⟨j, by simp, ht, Int.le_refl _, hl⟩, j, by simp, ht, hl, Int.le_refl _⟩
    | _ :: _ :: _, _, h2, _, _ => simp at h2

/-- So nothing that is reported is farther from the true time than two bands of the least sure of the right clocks. -/
theorem C147_bound {is : List Interval} (hs : ∀ i ∈ is, Sane i) {t : Int} (hm : Majority is t) {W : Int}
    (hW : ∀ i ∈ is, Tells i t → i.band ≤ W) {a b : Int} (h : Intersection is (a, b, true)) {x : Int} (h1 : a ≤ x) (h2 : x ≤ b) :
    t - 2 * W ≤ x ∧ x ≤ t + 2 * W := by
  obtain ⟨_, ⟨i, hi, i1, i2⟩, j, hj, j1, j2⟩ := C147_ends hs hm h
  have wi := hW i hi i1
  have wj := hW j hj j1
  unfold Tells Interval.low Interval.up at *
  omega

/-- This is as good as it gets: two clocks with band 10 are right, and what is reported begins 20 away from the true time. -/
theorem C147_bound_tight : ∃ (is : List Interval) (t a b W : Int), (∀ i ∈ is, Sane i) ∧ Majority is t ∧
    (∀ i ∈ is, Tells i t → i.band ≤ W) ∧ 0 < W ∧ Intersection is (a, b, true) ∧ a = t - 2 * W := by
  refine ⟨[⟨0, 10⟩, ⟨0, 10⟩, ⟨-1, 10⟩], 10, -10, 9, 10, by unfold Sane InInt64; decide, by decide, by decide, by decide, ?_, by decide⟩
  have := run_possible [⟨0, 10⟩, ⟨0, 10⟩, ⟨-1, 10⟩]
  rwa [show run [⟨0, 10⟩, ⟨0, 10⟩, ⟨-1, 10⟩] = (-10, 9, true) by decide] at this

/-- **C147 (partial).** The true time is strictly inside what is reported if it is strictly inside as many intervals as any time is
in. Missing from the full claim: times that more clocks have than the true one, for which it is false (`C147_refuted`), and a true
time at the edge of an interval (`C147_noties`). -/
theorem C147_partial {is : List Interval} (hs : ∀ i ∈ is, Sane i) {t : Int} (hn : is ≠ [])
    (hmax : ∀ x, right is x ≤ inside is t) {a b : Int} (h : Intersection is (a, b, true)) : a < t ∧ t < b := by
  by_cases h2 : 2 ≤ is.length
  · obtain ⟨F, _, h3, _, h5⟩ := span hs h2 h
    have := hmax a
    rw [right_eq] at this
    exact h5 t (by omega)
  · match is, hn, h2, hs, hmax, h with
    | [k], _, _, hs, hmax, h =>
      have e := (C45_few.2 k (hs k (by simp)) _ h)
      simp only [Prod.mk.injEq, and_true] at e
      obtain ⟨rfl, rfl⟩ := e
      have hb := (hs k (by simp)).1
      have hk : Tells k k.off := by unfold Tells Interval.low Interval.up; omega
      have := hmax k.off
      simp only [right, inside, List.countP_cons, List.countP_nil, hk, decide_true, if_true, decide_eq_true_eq] at this
      split_ifs at this with hc
      · exact hc
      · omega
    | _ :: _ :: _, _, h2, _, _, _ => simp at h2

/-- If no edges of different kinds coincide, a true time at an edge is in it too. -/
theorem C147_noties {is : List Interval} (hs : ∀ i ∈ is, Sane i) (ht : NoTies is) (h2 : 2 ≤ is.length) {t : Int}
    (hmax : ∀ x, right is x ≤ right is t) {a b : Int} (h : Intersection is (a, b, true)) : a ≤ t ∧ t ≤ b := by
  obtain ⟨F, _, ⟨la, gb, _⟩, _⟩ := (C109_partial hs ht h2 h).1 rfl
  have h1 := la.1
  simp only [Set.mem_ofPred_eq] at h1
  have := hmax a
  rw [right_eq, right_eq] at this
  have hx : t ∈ {x | is.length ≤ containing is x + F} := by simp only [Set.mem_ofPred_eq]; omega
  exact ⟨la.2 hx, gb.2 hx⟩

/-- **C147, when wrong clocks are clearly wrong**: if more than half are right, the true time is at the edge of none of them, and the
wrong ones have no time in common with the right ones, then it is in what is reported. -/
theorem C147_apart {is : List Interval} (hs : ∀ i ∈ is, Sane i) {t : Int} (hm : Majority is t) (hp : Apart is t)
    (hi : ∀ i ∈ is, Tells i t → i.low < t ∧ t < i.up) {a b : Int} (h : Intersection is (a, b, true)) : a < t ∧ t < b := by
  refine C147_partial hs (by rintro rfl; simp [Majority, right] at hm) (fun x => ?_) h
  have e : inside is t = right is t := by
    refine List.countP_congr fun i hii => ?_
    simp only [decide_eq_true_eq]
    exact ⟨fun h => ⟨by omega, by omega⟩, hi i hii⟩
  rw [e]
  by_cases hx : ∃ i ∈ is, Tells i t ∧ Tells i x
  · obtain ⟨i, hii, h1, h2⟩ := hx
    refine List.countP_mono_left fun j hj hjx => ?_
    simp only [decide_eq_true_eq] at hjx ⊢
    by_contra hc
    exact hp i hii j hj h1 hc x h2 hjx
  · by_contra hc
    unfold Majority at hm
    obtain ⟨i, hii, h1, h2⟩ := common (is := is) (p := fun i => decide (Tells i t)) (q := fun i => decide (Tells i x))
      (by unfold right at *; omega)
    exact hx ⟨i, hii, by simpa using h1, by simpa using h2⟩

/-- Non-vacuity: four clocks, the third is wrong; what is reported has the true time 5. -/
example : (∀ i ∈ [(⟨0, 10⟩ : Interval), ⟨1, 8⟩, ⟨100, 3⟩, ⟨2, 6⟩], Sane i) ∧ Majority [⟨0, 10⟩, ⟨1, 8⟩, ⟨100, 3⟩, ⟨2, 6⟩] 5 ∧
    Apart [⟨0, 10⟩, ⟨1, 8⟩, ⟨100, 3⟩, ⟨2, 6⟩] 5 ∧ NoTies [⟨0, 10⟩, ⟨1, 8⟩, ⟨100, 3⟩, ⟨2, 6⟩] ∧
    Intersection [⟨0, 10⟩, ⟨1, 8⟩, ⟨100, 3⟩, ⟨2, 6⟩] (-4, 8, true) ∧
    ∀ i ∈ [(⟨0, 10⟩ : Interval), ⟨1, 8⟩, ⟨100, 3⟩, ⟨2, 6⟩], Tells i 5 → i.low < 5 ∧ 5 < i.up := by
  refine ⟨by unfold Sane InInt64; decide, by decide, ?_, by unfold NoTies; decide, ?_, by decide⟩
  · intro i hi j hj
    simp only [List.mem_cons, List.not_mem_nil, or_false] at hi hj
    rcases hi with rfl | rfl | rfl | rfl <;> rcases hj with rfl | rfl | rfl | rfl <;>
      simp only [Tells, Interval.low, Interval.up] <;> intros <;> omega
  · have := run_possible [⟨0, 10⟩, ⟨1, 8⟩, ⟨100, 3⟩, ⟨2, 6⟩]
    rwa [show run [⟨0, 10⟩, ⟨1, 8⟩, ⟨100, 3⟩, ⟨2, 6⟩] = (-4, 8, true) by decide] at this

end Verif.InterTrue
