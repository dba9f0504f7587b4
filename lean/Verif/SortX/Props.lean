import Verif.SortX.Model
import Mathlib.Order.Defs.LinearOrder
import Mathlib.Data.List.Sort
/-!
# Properties of `sortx`
-/
namespace Verif.SortX
open Verif.Go

variable {T : Type}

theorem strictWeak_lt [LinearOrder T] : StrictWeak (fun a b : T => decide (a < b)) where
  irrefl a := by simp
  trans a b c h1 h2 := by simp at h1 h2 ⊢; exact lt_trans h1 h2
  incomp a b c h1 h2 h3 h4 := by
    simp at h1 h2 h3 h4 ⊢
    exact ⟨le_trans h3 h1, le_trans h2 h4⟩

theorem strictWeak_gt [LinearOrder T] : StrictWeak (fun a b : T => decide (b < a)) where
  irrefl a := by simp
  trans a b c h1 h2 := by simp at h1 h2 ⊢; exact lt_trans h2 h1
  incomp a b c h1 h2 h3 h4 := by
    simp at h1 h2 h3 h4 ⊢
    exact ⟨le_trans h1 h3, le_trans h4 h2⟩

/-- The full claim about `Sort`. -/
def C79_full : Prop := ∀ (S : Sorter) (s : List Nat) (reverse : Bool), (sort S (fun a b => decide (a < b)) s reverse).Perm s ∧
  (sort S (fun a b => decide (a < b)) s reverse).Pairwise (fun a b => if reverse then b ≤ a else a ≤ b)

/-- C79 (partial): `Sort` sorts in ascending order, whatever the flag. Missing: descending order when it is true. -/
theorem C79_sort_partial [LinearOrder T] (S : Sorter) (s : List T) (reverse : Bool) :
    (sort S (fun a b => decide (a < b)) s reverse).Perm s ∧ (sort S (fun a b => decide (a < b)) s reverse).Pairwise (fun a b => a ≤ b) := by
  refine ⟨S.perm _ _, (S.sorted _ _ strictWeak_lt).imp ?_⟩
  intro a b h
  simpa using h

/-- C79, the other functions. -/
theorem C79_others [LinearOrder T] (S : Sorter) (St : StableSorter) (s : List T) :
    ((sortReverse S (fun a b => decide (a < b)) s).Perm s ∧ (sortReverse S (fun a b => decide (a < b)) s).Pairwise (fun a b => b ≤ a)) ∧
    ((sortStable St (fun a b => decide (a < b)) s).Perm s ∧ (sortStable St (fun a b => decide (a < b)) s).Pairwise (fun a b => a ≤ b)) ∧
    ((sortStableReverse St (fun a b => decide (a < b)) s).Perm s ∧ (sortStableReverse St (fun a b => decide (a < b)) s).Pairwise (fun a b => b ≤ a)) := by
  refine ⟨⟨S.perm _ _, (S.sorted _ _ strictWeak_gt).imp ?_⟩, ⟨St.perm _ _, (St.sorted _ _ strictWeak_lt).imp ?_⟩,
    ⟨St.perm _ _, (St.sorted _ _ strictWeak_gt).imp ?_⟩⟩
  all_goals
    intro a b h
    simpa using h

/-- C79, with a comparison of one's own: elements with the same key keep their order. -/
theorem C79_stable {K : Type} [LinearOrder K] (St : StableSorter) (key : T → K) (s : List T) :
    (sortStableCustom St s (fun a b => decide (key a < key b))).Perm s ∧
    (sortStableCustom St s (fun a b => decide (key a < key b))).Pairwise (fun a b => key a ≤ key b) ∧
    ∀ k, (sortStableCustom St s (fun a b => decide (key a < key b))).filter (fun y => decide (key y = k)) = s.filter (fun y => decide (key y = k)) := by
  have hw : StrictWeak (fun a b : T => decide (key a < key b)) :=
    ⟨fun a => strictWeak_lt.irrefl (key a), fun a b c => strictWeak_lt.trans (key a) (key b) (key c),
      fun a b c => strictWeak_lt.incomp (key a) (key b) (key c)⟩
  refine ⟨St.perm _ _, (St.sorted _ _ hw).imp (fun h => by simpa using h), fun k => ?_⟩
  by_cases hk : ∃ x ∈ s, key x = k
  · obtain ⟨x, _, rfl⟩ := hk
    have := St.stable _ s x hw
    have e : (fun y => !decide (key x < key y) && !decide (key y < key x)) = (fun y => decide (key y = key x)) := by
      funext y
      rcases lt_trichotomy (key x) (key y) with h | h | h
      · simp [h, h.ne']
      · simp [h]
      · simp [h, h.ne]
    rw [e] at this
    exact this
  · have h1 : ∀ l : List T, l.Perm s → l.filter (fun y => decide (key y = k)) = [] := by
      intro l hl
      rw [List.filter_eq_nil_iff]
      intro y hy
      have := hl.subset hy
      simp only [decide_eq_true_eq]
      exact fun e => hk ⟨y, this, e⟩
    rw [h1 s (List.Perm.refl s)]
    exact h1 _ (St.perm _ _)

/-- C79 is false: with the flag set the result is still in ascending order, so in descending order only when all elements are
equal. -/
theorem C79_reverse_ignored [LinearOrder T] (S : Sorter) (s : List T)
    (h : (sort S (fun a b => decide (a < b)) s true).Pairwise (fun a b => b ≤ a)) : ∀ a ∈ s, ∀ b ∈ s, a = b := by
  obtain ⟨h1, h2⟩ := C79_sort_partial S s true
  have h3 := h.and h2
  intro a ha b hb
  have ha' := h1.symm.subset ha
  have hb' := h1.symm.subset hb
  obtain ⟨i, hi, rfl⟩ := List.mem_iff_getElem.1 ha'
  obtain ⟨j, hj, rfl⟩ := List.mem_iff_getElem.1 hb'
  have h4 := List.pairwise_iff_getElem.1 h3
  rcases Nat.lt_trichotomy i j with hlt | he | hlt
  · obtain ⟨p, q⟩ := h4 i j hi hj hlt
    exact le_antisymm q p
  · subst he; rfl
  · obtain ⟨p, q⟩ := h4 j i hj hi hlt
    exact le_antisymm p q

/-! ## A sorting routine: Lean's `mergeSort` -/

theorem sw_total {less : T → T → Bool} (h : StrictWeak less) (a b : T) : (!less b a || !less a b) = true := by
  by_cases h1 : less b a = true
  · by_cases h2 : less a b = true
    · have := h.trans _ _ _ h1 h2
      rw [h.irrefl] at this; cases this
    · simp [h2]
  · simp [h1]

theorem sw_trans {less : T → T → Bool} (h : StrictWeak less) (a b c : T) (h1 : (!less b a) = true) (h2 : (!less c b) = true) : (!less c a) = true := by
  simp only [Bool.not_eq_true'] at h1 h2 ⊢
  by_contra h3
  rw [Bool.not_eq_false] at h3
  by_cases h4 : less a b = true
  · rw [h.trans _ _ _ h3 h4] at h2; cases h2
  · by_cases h5 : less b c = true
    · rw [h.trans _ _ _ h5 h3] at h1; cases h1
    · rw [Bool.not_eq_true] at h4 h5
      rw [(h.incomp a b c h4 h1 h5 h2).2] at h3; cases h3

def merge : StableSorter where
  sort less s := s.mergeSort (fun a b => !less b a)
  perm less s := List.mergeSort_perm s _
  sorted less s h := (List.pairwise_mergeSort (fun a b c => sw_trans h a b c) (fun a b => sw_total h a b) s).imp (fun h => by simpa using h)
  stable less s x h := by
    have hp : (s.filter (fun y => !less x y && !less y x)).Pairwise (fun a b => (!less b a) = true) := by
      rw [List.pairwise_iff_getElem]
      intro i j hi hj _
      have h1 := (List.mem_filter.1 (List.getElem_mem hi)).2
      have h2 := (List.mem_filter.1 (List.getElem_mem hj)).2
      simp only [Bool.and_eq_true, Bool.not_eq_true'] at h1 h2 ⊢
      exact (h.incomp _ x _ h2.2 h2.1 h1.1 h1.2).1
    have h1 := List.sublist_mergeSort (fun a b c => sw_trans h a b c) (fun a b => sw_total h a b) hp List.filter_sublist
    have h2 := h1.filter (fun y => !less x y && !less y x)
    rw [List.filter_filter] at h2
    simp only [Bool.and_self] at h2
    exact (h2.eq_of_length ((List.mergeSort_perm s _).filter _).length_eq.symm).symm

theorem C79_refuted : ¬ C79_full := by
  intro h
  have h1 := (h merge.toSorter [1, 2] true).2
  have := C79_reverse_ignored merge.toSorter [1, 2] (by simpa using h1) 1 (by simp) 2 (by simp)
  cases this

/-! ## `IsSorted` -/

theorem isSortedLoop_spec (less : T → T → Bool) (s : List T) : ∀ i, i ≤ s.length → ∃ b, isSortedLoop less s i = .ret b ∧
    (b = true ↔ ∀ p (h : p + 1 < s.length), p + 1 < i → less s[p + 1] s[p] = false)
  | 0, _ => ⟨true, by simp [isSortedLoop], by simp⟩
  | i + 1, hi => by
    rw [isSortedLoop]
    by_cases h0 : i > 0
    · rw [if_pos h0, List.getElem?_eq_getElem (by omega), List.getElem?_eq_getElem (by omega)]
      simp only
      obtain ⟨b, hb, ih⟩ := isSortedLoop_spec less s i (by omega)
      split
      · rename_i hl
        refine ⟨false, rfl, ?_⟩
        obtain ⟨j, rfl⟩ : ∃ j, i = j + 1 := ⟨i - 1, by omega⟩
        constructor
        · intro h; cases h
        · intro h
          have := h j (by omega) (by omega)
          simp [this] at hl
      · rename_i hl
        refine ⟨b, hb, ?_⟩
        rw [ih]
        constructor
        · intro h p hp hpi
          rcases Nat.lt_or_ge (p + 1) i with hlt | hge
          · exact h p hp hlt
          · have e : i = p + 1 := by omega
            subst e
            simpa using hl
        · exact fun h p hp hpi => h p hp (by omega)
    · rw [if_neg h0]
      refine ⟨true, rfl, ?_⟩
      simp only [true_iff]
      intro p hp hpi
      omega

/-- C79: `IsSortedCustom` looks at neighbours, for any comparison, and always answers. -/
theorem C79_isSorted_custom (s : List T) (less : T → T → Bool) :
    ∃ b, isSortedCustom s less = .ret b ∧ (b = true ↔ ∀ p (h : p + 1 < s.length), less s[p + 1] s[p] = false) := by
  unfold isSortedCustom
  obtain ⟨b, hb, h⟩ := isSortedLoop_spec less s s.length (Nat.le_refl _)
  exact ⟨b, hb, by rw [h]; exact ⟨fun h p hp => h p hp hp, fun h p hp _ => h p hp⟩⟩

theorem pairwise_of_step {R : T → T → Prop} (htr : ∀ a b c, R a b → R b c → R a c) (s : List T)
    (h : ∀ p (hp : p + 1 < s.length), R s[p] s[p + 1]) : s.Pairwise R := by
  rw [List.pairwise_iff_getElem]
  intro i j hi hj hij
  obtain ⟨d, rfl⟩ : ∃ d, j = i + 1 + d := ⟨j - i - 1, by omega⟩
  induction d with
  | zero => exact h i hj
  | succ d ih => exact htr _ _ _ (ih (by omega) (by omega)) (h (i + 1 + d) hj)

/-- C79: for linear orders `IsSorted` and `IsSortedReverse` tell whether the slice is ascending or descending. -/
theorem C79_isSorted [LinearOrder T] (s : List T) :
    isSorted (fun a b => decide (a < b)) s = .ret (decide (s.Pairwise (fun a b => a ≤ b))) ∧
    isSortedReverse (fun a b => decide (a < b)) s = .ret (decide (s.Pairwise (fun a b => b ≤ a))) := by
  have key : ∀ (less : T → T → Bool) (R : T → T → Prop) [DecidableRel R],
      ((∀ p (h : p + 1 < s.length), less s[p + 1] s[p] = false) ↔ s.Pairwise R) →
      isSortedCustom s less = .ret (decide (s.Pairwise R)) := by
    intro less R _ h
    obtain ⟨b, hb, hb'⟩ := C79_isSorted_custom s less
    rw [hb, Outcome.ret.injEq, Bool.eq_iff_iff, decide_eq_true_iff, hb', h]
  constructor
  · unfold isSorted
    refine key _ _ ?_
    simp only [decide_eq_false_iff_not, not_lt]
    exact ⟨fun h => pairwise_of_step (R := fun a b => a ≤ b) (fun _ _ _ => le_trans) s h, fun h p hp => List.pairwise_iff_getElem.1 h p (p + 1) (by omega) hp (by omega)⟩
  · unfold isSortedReverse
    refine key _ _ ?_
    simp only [decide_eq_false_iff_not, not_lt]
    exact ⟨fun h => pairwise_of_step (R := fun a b => b ≤ a) (fun _ _ _ h1 h2 => le_trans h2 h1) s h,
      fun h p hp => List.pairwise_iff_getElem.1 h p (p + 1) (by omega) hp (by omega)⟩

/-- Floats: numbers and NaN. -/
abbrev Fl := Option Int

def flLt : Fl → Fl → Bool
  | some a, some b => decide (a < b)
  | _, _ => false

/-- For floats it is false: `[1, NaN, 0]` counts as sorted although 0 comes after 1; and `<` is no strict weak ordering, so sorting
slices with NaN guarantees nothing. -/
theorem C79_float_refuted : isSorted flLt [some 1, none, some 0] = .ret true ∧ flLt (some 0) (some 1) = true ∧ ¬ StrictWeak flLt := by
  refine ⟨rfl, by decide, fun h => ?_⟩
  exact absurd (h.incomp (some 0) none (some 1) rfl rfl rfl rfl).1 (by decide)

example : isSorted (fun a b => decide (a < b)) ([1, 2, 2] : List Nat) = .ret true ∧ isSorted (fun a b => decide (a < b)) ([1, 2, 0] : List Nat) = .ret false := ⟨rfl, rfl⟩

end Verif.SortX
