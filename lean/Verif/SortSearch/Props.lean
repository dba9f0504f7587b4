import Mathlib.Data.List.Sort
import Mathlib.Data.List.MinMax
import Verif.SortX.Props
import Verif.Search.Props
/-!
# Property C121: sorting and then searching

The models are those of C78 and C79; the sorting routines are any that keep their documentation's promise.
-/
namespace Verif.SortSearch
open Verif.Go Verif.SortX Verif.Search

variable {T : Type}

/-- The `<` of the type. -/
abbrev lt [LinearOrder T] : T → T → Bool := fun a b => decide (a < b)

/-- Specification: where `x` is or belongs in the sorted content, and whether it is there. -/
def place [LinearOrder T] (s : List T) (x : T) : Nat × Bool := (s.countP (fun v => decide (v < x)), decide (x ∈ s))

/-- **C121 (full statement).** After each of the sorting functions `Search` finds exactly what is in the slice. -/
def C121_full : Prop := ∀ (T : Type) (_ : LinearOrder T) (S : Sorter) (St : StableSorter) (s : List T) (x : T),
  s.length < 2 ^ 63 → ∀ s' ∈ [sort S lt s false, sort S lt s true, sortReverse S lt s, sortStable St lt s,
    sortStableReverse St lt s], ∃ i, search lt s' x = .ret (i, decide (x ∈ s))

theorem search_perm [LinearOrder T] {s s' : List T} (hp : s'.Perm s) (hs : s'.Pairwise (fun a b => a ≤ b)) (x : T)
    (h : s.length < 2 ^ 63) : search lt s' x = .ret (place s x) := by
  rw [C78_sorted s' x (by rw [hp.length_eq]; exact h) hs, hp.countP_eq]
  simp [place, hp.mem_iff]

/-- **C121, ascending.** After `Sort`, whatever its flag, and after `SortStable`, `Search` yields the number of
smaller elements in the slice as it was before, and whether the element was in it. -/
theorem C121_partial [LinearOrder T] (S : Sorter) (St : StableSorter) (s : List T) (x : T) (reverse : Bool)
    (h : s.length < 2 ^ 63) :
    search lt (sort S lt s reverse) x = .ret (place s x) ∧ search lt (sortStable St lt s) x = .ret (place s x) :=
  ⟨search_perm (C79_sort_partial S s reverse).1 (C79_sort_partial S s reverse).2 x h,
    search_perm (C79_others S St s).2.1.1 (C79_others S St s).2.1.2 x h⟩

/-- **C121, all routines agree.** For linearly ordered elements the results do not depend on the routine, on
stability or on the flag, the descending ones are the ascending ones read backwards, and sorting what is sorted
changes nothing. -/
theorem C121_unique [LinearOrder T] (S S' : Sorter) (St : StableSorter) (s : List T) (r r' : Bool) :
    sort S lt s r = sort S' lt s r' ∧ sortStable St lt s = sort S lt s r ∧
    sortReverse S lt s = (sort S' lt s r).reverse ∧ sortStableReverse St lt s = sortReverse S lt s ∧
    (s.Pairwise (fun a b => a ≤ b) → sort S lt s r = s) := by
  have u : ∀ {a b : List T}, a.Perm s → b.Perm s → a.Pairwise (fun a b => a ≤ b) → b.Pairwise (fun a b => a ≤ b) →
      a = b := fun pa pb ha hb => (pa.trans pb.symm).eq_of_pairwise (fun _ _ _ _ h h' => le_antisymm h h') ha hb
  have h1 := fun (S : Sorter) r => C79_sort_partial S s r
  have h2 := C79_others S St s
  have e1 : sortReverse S lt s = (sort S' lt s r).reverse := by
    rw [← List.reverse_eq_iff]
    refine u ((List.reverse_perm _).trans h2.1.1) (h1 S' r).1 ?_ (h1 S' r).2
    rw [List.pairwise_reverse]
    exact h2.1.2
  refine ⟨u (h1 S r).1 (h1 S' r').1 (h1 S r).2 (h1 S' r').2, u h2.2.1.1 (h1 S r).1 h2.2.1.2 (h1 S r).2, e1, ?_,
    fun hs => u (h1 S r).1 (List.Perm.refl _) (h1 S r).2 hs⟩
  rw [e1, ← List.reverse_eq_iff]
  refine u ((List.reverse_perm _).trans h2.2.2.1) (h1 S' r).1 ?_ (h1 S' r).2
  rw [List.pairwise_reverse]
  exact h2.2.2.2

/-- **C121, descending.** After `SortReverse` and `SortStableReverse`, `Search` goes to one end of the slice, and
finds nothing but, possibly, the largest element. -/
theorem C121_reverse [LinearOrder T] (S : Sorter) (St : StableSorter) (s : List T) (x : T) (h : s.length < 2 ^ 63) :
    ∀ s' ∈ [sortReverse S lt s, sortStableReverse St lt s], ∃ i found, search lt s' x = .ret (i, found) ∧
      (i = 0 ∨ i = s.length) ∧ (found = true → i = 0 ∧ x ∈ s ∧ ∀ y ∈ s, y ≤ x) := by
  have key : ∀ s' : List T, s'.Perm s → s'.Pairwise (fun a b => b ≤ a) → ∃ i found, search lt s' x = .ret (i, found) ∧
      (i = 0 ∨ i = s.length) ∧ (found = true → i = 0 ∧ x ∈ s ∧ ∀ y ∈ s, y ≤ x) := by
    intro s' hp hs
    have hl := hp.length_eq
    obtain ⟨i, found, h1, h2, h3, h4, h5⟩ := C78_any s' x
      (fun a b => if lt a b then (-1 : Int) else if lt b a then 1 else 0) (by rw [hl]; exact h)
    have hi : i = 0 ∨ i = s.length := by
      by_contra hn
      have a1 := h3 s'[i - 1] (by omega) (List.getElem?_eq_getElem (by omega))
      have a2 := h4 s'[i] (List.getElem?_eq_getElem (by omega))
      have a3 := (cmp_linear _ _).1.1 a1
      have a4 : ¬ s'[i] < x := fun hh => absurd ((cmp_linear _ _).1.2 hh) (not_lt_of_ge a2)
      have a5 := List.pairwise_iff_getElem.1 hs (i - 1) i (by omega) (by omega) (by omega)
      exact a4 (lt_of_le_of_lt a5 a3)
    refine ⟨i, found, h1, hi, fun hf => ?_⟩
    obtain ⟨v, hv, e⟩ := h5.1 hf
    have ev := (cmp_linear _ _).2.1.1 e
    subst ev
    obtain ⟨hil, e⟩ := List.getElem?_eq_some_iff.1 hv
    have i0 : i = 0 := by omega
    subst i0
    refine ⟨rfl, hp.subset (List.mem_of_getElem? hv), fun y hy => ?_⟩
    obtain ⟨p, hpl, rfl⟩ := List.mem_iff_getElem.1 (hp.symm.subset hy)
    rcases Nat.eq_zero_or_pos p with rfl | hpos
    · exact e.le
    · rw [← e]
      exact List.pairwise_iff_getElem.1 hs 0 p hil hpl hpos
  intro s' hs'
  have h2 := C79_others S St s
  simp only [List.mem_cons, List.not_mem_nil, or_false] at hs'
  rcases hs' with rfl | rfl
  · exact key _ h2.1.1 h2.1.2
  · exact key _ h2.2.2.1 h2.2.2.2

/-- **C121, how to search a descending slice**: `SearchCustom` with the comparison turned around yields the number
of larger elements and whether the element is there. -/
theorem C121_custom [LinearOrder T] (S : Sorter) (s : List T) (x : T) (h : s.length < 2 ^ 63) :
    searchCustom (sortReverse S lt s) x (fun a b => if lt b a then -1 else if lt a b then 1 else 0) =
      .ret (s.countP (fun v => decide (x < v)), decide (x ∈ s)) := by
  obtain ⟨hp, hs⟩ := (C79_others S merge s).1
  have := @search_perm Tᵒᵈ _ s (sortReverse (T := T) S (fun a b => decide (a < b)) s) hp hs x h
  unfold search place at this
  have e : (fun a b : T => if lt b a then (-1 : Int) else if lt a b then 1 else 0) =
      (fun a b : T => if @lt Tᵒᵈ _ a b then (-1 : Int) else if @lt Tᵒᵈ _ b a then 1 else 0) := by
    have e : ∀ a b : T, @lt Tᵒᵈ _ a b = @lt T _ b a := fun a b => decide_eq_decide.2 Iff.rfl
    funext a b
    rw [e a b, e b a]
  rw [e]
  refine Eq.trans this (congrArg Outcome.ret (Prod.ext ?_ ?_))
  · exact congrArg (List.countP · s) (funext fun v => decide_eq_decide.2 Iff.rfl)
  · exact decide_eq_decide.2 Iff.rfl

/-! ## Cases -/

example : search lt (sort merge.toSorter lt [3, 1, 2, 3] true) 3 = .ret (2, true) :=
  (C121_partial merge.toSorter merge [3, 1, 2, 3] 3 true (by decide)).1

/-- **C121 is false**: 1 is not found in 2, 1. -/
theorem C121_refuted : ¬ C121_full := by
  intro h
  obtain ⟨i, hi⟩ := h Nat inferInstance merge.toSorter merge [1, 2] 1 (by decide)
    (sortReverse merge.toSorter lt [1, 2]) (by simp)
  obtain ⟨j, found, h1, -, h3⟩ := C121_reverse merge.toSorter merge [1, 2] 1 (by decide)
    (sortReverse merge.toSorter lt [1, 2]) (by simp)
  rw [hi] at h1
  simp only [Outcome.ret.injEq, Prod.mk.injEq] at h1
  have := (h3 (by rw [← h1.2]; decide)).2.2 2 (by simp)
  omega

/-! Floats: two zeros that compare equal are different values, so that stable and unstable sorts, or a sort
backwards and a reversed sort, may differ. -/

/-- Numbers with a sign of zero: `(n, b)`, compared by `n` only. -/
def zlt : Int × Bool → Int × Bool → Bool := fun a b => decide (a.1 < b.1)

/-- For floats the results may depend on the routine even without NaN: what is sorted descending is not what is
sorted ascending read backwards. -/
theorem C121_zeros (St : StableSorter) : sortStableReverse St zlt [(0, true), (0, false)] ≠
    (sortStable St zlt [(0, true), (0, false)]).reverse := by
  have h1 : StrictWeak zlt := ⟨by simp [zlt], by simp only [zlt, decide_eq_true_eq]; omega,
    by simp only [zlt, decide_eq_false_iff_not]; omega⟩
  have h2 : StrictWeak (fun i j => zlt j i) := ⟨by simp [zlt], by simp only [zlt, decide_eq_true_eq]; omega,
    by simp only [zlt, decide_eq_false_iff_not]; omega⟩
  have key : ∀ less : Int × Bool → Int × Bool → Bool, StrictWeak less → (∀ b c, less (0, b) (0, c) = false) →
      St.sort less [(0, true), (0, false)] = [(0, true), (0, false)] := by
    intro less hw h0
    have e := St.stable less [(0, true), (0, false)] (0, true) hw
    rw [List.filter_eq_self.2, List.filter_eq_self.2] at e
    · exact e
    · intro y hy
      simp only [List.mem_cons, List.not_mem_nil, or_false] at hy
      rcases hy with rfl | rfl <;> simp [h0]
    · intro y hy
      have hy := (St.perm less [(0, true), (0, false)]).subset hy
      simp only [List.mem_cons, List.not_mem_nil, or_false] at hy
      rcases hy with rfl | rfl <;> simp [h0]
  unfold sortStableReverse sortStable sortStableCustom
  rw [key _ h1 (by simp [zlt]), key _ h2 (by simp [zlt])]
  decide

end Verif.SortSearch
