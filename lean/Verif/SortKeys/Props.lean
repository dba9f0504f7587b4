import Verif.SortKeys.Lemmas
/-!
# C164: sorting by one key after another
-/
namespace Verif.SortKeys
open Verif.SortX

variable {T : Type}

/-- **C164.** Sorting by one comparison after another, the most important last, is sorting once by all of them, whatever stable routines are
used: the elements are in the order of the first comparison that tells them apart, and those that none tells apart keep their order. -/
theorem C164_one_after_another (S S' : StableSorter) (cmps : List (T → T → Bool)) (h : ∀ less ∈ cmps, StrictWeak less) (s : List T) :
    sortAll S cmps s = sortStableCustom S' s (lexLess cmps) ∧ (sortAll S cmps s).Perm s ∧
      ((sortAll S cmps s).Pairwise fun a b => lexLess cmps b a = false) ∧
      ∀ x, (sortAll S cmps s).filter (eqv (lexLess cmps) x) = s.filter (eqv (lexLess cmps) x) := by
  obtain ⟨h1, h2, h3⟩ := sortAll_spec S s cmps h
  have hw := lexLess_sw h
  exact ⟨ordered_unique hw h2 (S'.sorted _ _ hw) (fun x => (h3 x).trans (S'.stable _ s x hw).symm), h1, h2, h3⟩

/-- Two columns: by `b`, then by `a`, gives pairs of `(a, b)` in lexicographic order. -/
theorem C164_two_keys {A B : Type} [LinearOrder A] [LinearOrder B] (S : StableSorter) (f : T → A) (g : T → B) (s : List T) :
    (sortStableCustom S (sortStableCustom S s fun x y => decide (g x < g y)) fun x y => decide (f x < f y)).Pairwise
      fun x y => f x < f y ∨ f x = f y ∧ g x ≤ g y := by
  have sw : ∀ {C : Type} [LinearOrder C] (k : T → C), StrictWeak fun x y : T => decide (k x < k y) := fun k =>
    ⟨fun a => strictWeak_lt.irrefl (k a), fun a b c => strictWeak_lt.trans (k a) (k b) (k c), fun a b c => strictWeak_lt.incomp (k a) (k b) (k c)⟩
  have := (C164_one_after_another S S [fun x y => decide (f x < f y), fun x y => decide (g x < g y)] (by
    intro l hl
    simp at hl
    rcases hl with rfl | rfl
    · exact sw f
    · exact sw g) s).2.2.1
  refine List.Pairwise.imp ?_ this
  intro x y hxy
  simp only [lexLess, decide_eq_true_eq] at hxy
  rcases lt_trichotomy (f x) (f y) with h | h | h
  · exact .inl h
  · refine .inr ⟨h, ?_⟩
    simp only [h, lt_irrefl, if_false] at hxy
    by_contra hc
    rw [not_le] at hc
    simp [hc] at hxy
  · simp [h] at hxy

/-- A routine that sorts, but turns equivalent elements around: `mergeSort` of the reversed list. -/
def turning : Sorter where
  sort less s := s.reverse.mergeSort (fun a b => !less b a)
  perm less s := (List.mergeSort_perm _ _).trans (List.reverse_perm s)
  sorted less s h := (List.pairwise_mergeSort (fun a b c => sw_trans h a b c) (fun a b => sw_total h a b) s.reverse).imp (fun h => by simpa using h)

def byFst (a b : Nat × Nat) : Bool := decide (a.1 < b.1)
def bySnd (a b : Nat × Nat) : Bool := decide (a.2 < b.2)

/-- With `SortCustom` it is false: a routine that meets its documentation undoes the first sort. -/
theorem C164_unstable : sortAllUnstable turning [byFst, bySnd] [(1, 1), (1, 2)] = [(1, 2), (1, 1)] := by
  simp [sortAllUnstable, sortCustom, turning, byFst, bySnd, List.mergeSort, List.MergeSort.Internal.splitInTwo]

example : sortAll merge [byFst, bySnd] [(2, 1), (1, 2), (1, 1)] = [(1, 1), (1, 2), (2, 1)] := by
  simp [sortAll, sortStableCustom, merge, byFst, bySnd, List.mergeSort, List.MergeSort.Internal.splitInTwo]

example : ∀ less ∈ [byFst, bySnd], StrictWeak less := by
  intro l hl
  simp at hl
  rcases hl with rfl | rfl
  · exact ⟨fun a => strictWeak_lt.irrefl a.1, fun a b c => strictWeak_lt.trans a.1 b.1 c.1, fun a b c => strictWeak_lt.incomp a.1 b.1 c.1⟩
  · exact ⟨fun a => strictWeak_lt.irrefl a.2, fun a b c => strictWeak_lt.trans a.2 b.2 c.2, fun a b c => strictWeak_lt.incomp a.2 b.2 c.2⟩

end Verif.SortKeys
