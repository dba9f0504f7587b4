import Verif.SyncAny.Lemmas
import Verif.Go.Basic
/-!
# C99: the concurrent map and keys that do not equal themselves
-/
namespace Verif.SyncAny
open Verif.Go

variable {K V : Type} {eq : K → K → Bool}

/-- The full statement: what `Keys` lists, `Has` finds. -/
def C99_full : Prop := ∀ (K : Type) (eq : K → K → Bool), PartialEq eq → ∀ (hist : List (Op K Int)) (ks : List K),
  Keys (run eq hist) ks → ∀ k ∈ ks, has eq (run eq hist) k = true

/-- What holds for every symmetric and transitive `==`. `Get` and `Has` are right for all keys. `Keys` lists a key
that equals itself once if it is present and not at all otherwise, up to `==`. The other keys it lists are those
that do not equal themselves, once for each `Set` since the last `Clear`. Missing from the full statement: `Has`
does not find the latter. -/
theorem C99_partial [Inhabited V] (pe : PartialEq eq) (hist : List (Op K V)) (ks : List K) (vs : List V)
    (hk : Keys (run eq hist) ks) (hv : Values (run eq hist) vs) :
    (∀ k, get eq (run eq hist) k = (lookup eq hist k).getD default ∧
      has eq (run eq hist) k = (lookup eq hist k).isSome) ∧
    (∀ k, (ks.filter (fun k' => eq k' k)).length = (lookup eq hist k).toList.length) ∧
    (ks.filter (fun k => !eq k k)).Perm ((unreachable eq hist).map Prod.fst) ∧
    (unreachable eq hist).map Prod.snd ⊆ vs ∧
    ks.length = size (run eq hist) ∧ vs.length = size (run eq hist) := by
  obtain ⟨h1, h2⟩ := entries_spec pe hist
  have hf : ∀ k, find eq (run eq hist) k = lookup eq hist k := by
    intro k
    have := h1 k
    rw [find, ← List.head?_filter]
    generalize (run eq hist).filter (fun e => eq e.1 k) = l at this
    cases h : lookup eq hist k with
    | none => rw [h] at this; cases l <;> simp_all
    | some v => rw [h] at this; cases l <;> simp_all
  refine ⟨fun k => ⟨by rw [get, hf], by rw [has, hf]⟩, fun k => ?_, ?_, ?_, ?_, ?_⟩
  · rw [(hk.filter _).length_eq, ← h1 k, List.filter_map, List.length_map, List.length_map]
    rfl
  · refine (hk.filter _).trans ?_
    rw [List.filter_map]
    exact h2.map Prod.fst
  · intro v hvm
    obtain ⟨e, he, rfl⟩ := List.mem_map.1 hvm
    have := h2.symm.subset he
    exact hv.symm.subset (List.mem_map.2 ⟨e, (List.mem_filter.1 this).1, rfl⟩)
  · rw [hk.length_eq, List.length_map, size]
  · rw [hv.length_eq, List.length_map, size]

/-- `Delete` of a key that does not equal itself changes nothing: only `Clear` gets rid of it. -/
theorem C99_stuck (pe : PartialEq eq) (m : List (K × V)) (k : K) (h : eq k k = false) : step eq m (.delete k) = m := by
  show erase eq m k = m
  unfold erase
  rw [List.filter_eq_self]
  intro e _
  cases he : eq e.1 k with
  | false => rfl
  | true => rw [pe.left (pe.symm he)] at h; cases h

/-- `==` of floats. -/
def floatEq : FloatKey → FloatKey → Bool := GoOrdered.eq

theorem floatEq_partial : PartialEq floatEq where
  symm := by
    intro a b h
    cases a <;> cases b <;> simp_all [floatEq, GoOrdered.eq]
  trans := by
    intro a b c h1 h2
    cases a <;> cases b <;> cases c <;> simp_all [floatEq, GoOrdered.eq]

/-- False: after `Set(NaN, 1); Set(NaN, 2); Delete(NaN)`, `Size` is 2 and `Keys` lists NaN twice, but `Has(NaN)` is
false and `Get(NaN)` is the zero value. -/
theorem C99_refuted : ¬ C99_full ∧
    let m := run floatEq [.set .nan (1 : Int), .set .nan 2, .delete .nan]
    size m = 2 ∧ Keys m [.nan, .nan] ∧ Values m [1, 2] ∧ has floatEq m .nan = false ∧ get floatEq m .nan = 0 := by
  refine ⟨fun h => ?_, rfl, .refl _, List.Perm.swap .., rfl, rfl⟩
  have := h FloatKey floatEq floatEq_partial [.set .nan 1] [.nan] (.refl _) .nan (by simp)
  cases this

/-- Other keys are not affected. -/
example : lookup floatEq [.set .nan (1 : Int), .set (.num 3) 4, .set .nan 2, .set (.num 3) 5, .delete .nan] (.num 3) = some 5 ∧
    unreachable floatEq [.set .nan (1 : Int), .set (.num 3) 4, .set .nan 2, .set (.num 3) 5, .delete .nan] = [(.nan, 1), (.nan, 2)] :=
  ⟨rfl, rfl⟩

end Verif.SyncAny
