import Verif.ShuffleFair.Lemmas
import Verif.Slicex.Props
import Mathlib.Data.Nat.Factorial.BigOperators
/-!
# C135: Shuffle is fair
-/
namespace Verif.ShuffleFair
open Verif.Go Verif.Slicex

variable {T : Type} [Inhabited T]

/-- **C135**: each of the `n!` sequences of draws gives one arrangement of the elements; every arrangement comes up, and
each one for as many sequences of draws as any other, also when some elements are equal. -/
theorem C135_fair (h : Hp T) (s : Sl) :
    Nat.card (Draws s.len) = s.len.factorial ∧ (∀ d, ∃ l, Gives h s d l ∧ l.Perm (elems h s) ∧ ∀ l', Gives h s d l' → l' = l) ∧
    ∀ l, l.Perm (elems h s) → 0 < ways h s l ∧ ∀ l', l'.Perm (elems h s) → ways h s l = ways h s l' := by
  refine ⟨?_, fun d => ?_, fun l p => ⟨?_, fun l' p' => ?_⟩⟩
  · rw [Nat.card_eq_fintype_card, Fintype.card_pi]
    simp only [Fintype.card_fin]
    rw [Fin.prod_univ_eq_prod_range (fun i => i + 1), Finset.prod_range_add_one_eq_factorial]
  · obtain ⟨h', e, hp, -⟩ := C29_shuffle h s (source d)
    refine ⟨elems h' s, ⟨h', e, rfl⟩, hp, ?_⟩
    rintro l' ⟨h1, e1, rfl⟩
    rw [e] at e1
    cases e1
    rfl
  · obtain ⟨t, h1, h2⟩ := exists_perm p.symm
    rw [elems_length] at h1
    obtain ⟨d, hd⟩ := permOf_surj t h1
    have : Nonempty { d : Draws s.len // Gives h s d l } := ⟨⟨d, gives_iff.2 fun k => by rw [hd]; exact h2 k⟩⟩
    exact Nat.card_pos
  · refine Nat.le_antisymm (ways_le ?_ (p.trans p'.symm)) (ways_le ?_ (p'.trans p.symm))
    · rw [p.length_eq, elems_length]
    · rw [p'.length_eq, elems_length]

/-- **C135 for different elements**: exactly one sequence of draws leads to each arrangement. -/
theorem C135_unique (h : Hp T) (s : Sl) (nd : (elems h s).Nodup) (l : List T) (p : l.Perm (elems h s)) :
    ∃! d, Gives h s d l := by
  obtain ⟨t, h1, h2⟩ := exists_perm p.symm
  rw [elems_length] at h1
  obtain ⟨d, hd⟩ := permOf_surj t h1
  refine ⟨d, gives_iff.2 fun k => by rw [hd]; exact h2 k, fun e he => permOf_inj (Equiv.ext fun k => ?_)⟩
  by_cases hk : k < s.len
  · have h3 := (gives_iff.1 he k).symm.trans (h2 k)
    rw [← hd] at h3
    have hl : permOf e k < (elems h s).length := by rw [elems_length]; exact perm_lt _ _ _ hk
    exact (List.getElem?_inj hl nd).1 h3
  · rw [permOf, permOf, perm_fix _ _ _ (by omega), perm_fix _ _ _ (by omega)]

/-- Three elements, two of them equal: all three arrangements come up. -/
example (h : Hp Nat) (s : Sl) (e : elems h s = [4, 4, 7]) : 0 < ways h s [4, 7, 4] ∧ ways h s [4, 7, 4] = ways h s [7, 4, 4] :=
  have f := (C135_fair h s).2.2
  ⟨(f _ (by rw [e]; decide)).1, (f _ (by rw [e]; decide)).2 _ (by rw [e]; decide)⟩

example : elems mem0 ⟨0, 0, 5, 5⟩ = [1, 2, 3, 4, 5] := by decide

end Verif.ShuffleFair
