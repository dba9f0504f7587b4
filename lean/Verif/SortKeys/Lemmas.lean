import Verif.SortKeys.Spec
import Verif.SortX.Props
/-!
# Stable sorting is determined by the comparison
-/
namespace Verif.SortKeys
open Verif.SortX

variable {T : Type}

theorem sw_asymm {less : T → T → Bool} (h : StrictWeak less) {a b : T} (h1 : less a b = true) : less b a = false := by
  by_contra h2
  rw [Bool.not_eq_false] at h2
  have := h.trans _ _ _ h1 h2
  rw [h.irrefl] at this; cases this

theorem sw_lt_eqv {less : T → T → Bool} (h : StrictWeak less) {a b c : T} (h1 : less a b = true) (h2 : less b c = false) (h3 : less c b = false) :
    less a c = true := by
  by_contra h4
  rw [Bool.not_eq_true] at h4
  by_cases h5 : less c a = true
  · rw [h.trans _ _ _ h5 h1] at h3; cases h3
  · rw [Bool.not_eq_true] at h5
    rw [(h.incomp a c b h4 h5 h3 h2).1] at h1; cases h1

theorem sw_eqv_lt {less : T → T → Bool} (h : StrictWeak less) {a b c : T} (h1 : less a b = false) (h2 : less b a = false) (h3 : less b c = true) :
    less a c = true := by
  by_contra h4
  rw [Bool.not_eq_true] at h4
  by_cases h5 : less c a = true
  · rw [h.trans _ _ _ h3 h5] at h2; cases h2
  · rw [Bool.not_eq_true] at h5
    rw [(h.incomp b a c h2 h1 h4 h5).1] at h3; cases h3

theorem lexLess_cons {less : T → T → Bool} {cmps : List (T → T → Bool)} {a b : T} :
    lexLess (less :: cmps) a b = true ↔ less a b = true ∨ (less a b = false ∧ less b a = false ∧ lexLess cmps a b = true) := by
  rw [lexLess]
  by_cases h1 : less a b = true
  · simp [h1]
  · by_cases h2 : less b a = true <;> simp_all

theorem lexLess_eqv {less : T → T → Bool} {cmps : List (T → T → Bool)} (x y : T) :
    eqv (lexLess (less :: cmps)) x y = (eqv less x y && eqv (lexLess cmps) x y) := by
  unfold eqv
  rw [lexLess, lexLess]
  by_cases h1 : less x y = true
  · simp [h1]
  · by_cases h2 : less y x = true <;> simp_all

/-- The combined comparison is a strict weak ordering. -/
theorem lexLess_sw : ∀ {cmps : List (T → T → Bool)}, (∀ less ∈ cmps, StrictWeak less) → StrictWeak (lexLess cmps)
  | [], _ => ⟨fun _ => rfl, by simp [lexLess], by simp [lexLess]⟩
  | less :: cmps, h => by
    have h0 := h less List.mem_cons_self
    have ih := lexLess_sw (cmps := cmps) (fun l hl => h l (List.mem_cons_of_mem _ hl))
    refine ⟨fun a => by simp [lexLess, h0.irrefl, ih.irrefl], fun a b c h1 h2 => ?_, fun a b c h1 h2 h3 h4 => ?_⟩
    · rw [lexLess_cons] at *
      rcases h1 with h1 | ⟨p, q, h1⟩ <;> rcases h2 with h2 | ⟨p', q', h2⟩
      · exact .inl (h0.trans _ _ _ h1 h2)
      · exact .inl (sw_lt_eqv h0 h1 p' q')
      · exact .inl (sw_eqv_lt h0 p q h2)
      · exact .inr ⟨(h0.incomp _ _ _ p q p' q').1, (h0.incomp _ _ _ p q p' q').2, ih.trans _ _ _ h1 h2⟩
    · have e1 : eqv (lexLess (less :: cmps)) a b = true := by simp [eqv, h1, h2]
      have e2 : eqv (lexLess (less :: cmps)) b c = true := by simp [eqv, h3, h4]
      rw [lexLess_eqv] at e1 e2
      have e3 : eqv (lexLess (less :: cmps)) a c = true := by
        rw [lexLess_eqv]
        simp only [eqv, Bool.and_eq_true, Bool.not_eq_true'] at *
        exact ⟨h0.incomp _ _ _ e1.1.1 e1.1.2 e2.1.1 e2.1.2, ih.incomp _ _ _ e1.2.1 e1.2.2 e2.2.1 e2.2.2⟩
      simpa [eqv] using e3

/-- Two lists in order in which equivalent elements come in the same order are the same. -/
theorem ordered_unique {less : T → T → Bool} (h : StrictWeak less) : ∀ {l m : List T}, l.Pairwise (fun a b => less b a = false) →
    m.Pairwise (fun a b => less b a = false) → (∀ x, l.filter (eqv less x) = m.filter (eqv less x)) → l = m := by
  have refl : ∀ x, eqv less x x = true := fun x => by simp [eqv, h.irrefl]
  have mem : ∀ {l m : List T}, (∀ x, l.filter (eqv less x) = m.filter (eqv less x)) → ∀ x ∈ l, x ∈ m := by
    intro l m hf x hx
    have : x ∈ l.filter (eqv less x) := List.mem_filter.2 ⟨hx, refl x⟩
    rw [hf x] at this
    exact (List.mem_filter.1 this).1
  intro l
  induction l with
  | nil =>
    intro m _ _ hf
    cases m with
    | nil => rfl
    | cons b m => exact absurd (mem (fun x => (hf x).symm) b (by simp)) (by simp)
  | cons a l ih =>
    intro m hl hm hf
    cases m with
    | nil => exact absurd (mem hf a (by simp)) (by simp)
    | cons b m =>
      rw [List.pairwise_cons] at hl hm
      have h1 : less b a = false := by
        rcases List.mem_cons.1 (mem (fun x => (hf x).symm) b (by simp)) with rfl | hb
        · exact h.irrefl _
        · exact hl.1 b hb
      have h2 : less a b = false := by
        rcases List.mem_cons.1 (mem hf a (by simp)) with rfl | ha
        · exact h.irrefl _
        · exact hm.1 a ha
      have e : a = b := by
        have := hf a
        rw [List.filter_cons_of_pos (refl a), List.filter_cons_of_pos (by simp [eqv, h1, h2])] at this
        exact (List.cons.inj this).1
      subst e
      rw [ih hl.2 hm.2 (fun x => ?_)]
      have := hf x
      rw [List.filter_cons, List.filter_cons] at this
      split at this
      · exact (List.cons.inj this).2
      · exact this

theorem sortAll_spec (S : StableSorter) (s : List T) : ∀ (cmps : List (T → T → Bool)), (∀ less ∈ cmps, StrictWeak less) →
    (sortAll S cmps s).Perm s ∧ (sortAll S cmps s).Pairwise (fun a b => lexLess cmps b a = false) ∧
      ∀ x, (sortAll S cmps s).filter (eqv (lexLess cmps) x) = s.filter (eqv (lexLess cmps) x)
  | [], _ => ⟨List.Perm.refl _, List.pairwise_of_forall (fun _ _ => rfl), fun _ => rfl⟩
  | less :: cmps, h => by
    have h0 := h less List.mem_cons_self
    obtain ⟨ih1, ih2, ih3⟩ := sortAll_spec S s cmps (fun l hl => h l (List.mem_cons_of_mem _ hl))
    have hst : ∀ x, (sortAll S (less :: cmps) s).filter (eqv less x) = (sortAll S cmps s).filter (eqv less x) := fun x => S.stable less _ x h0
    refine ⟨(S.perm less _).trans ih1, ?_, fun x => ?_⟩
    · rw [List.pairwise_iff_forall_sublist]
      intro a b hab
      have hs : less b a = false := by
        have : (sortAll S (less :: cmps) s).Pairwise (fun a b => less b a = false) := S.sorted less _ h0
        exact List.pairwise_iff_forall_sublist.1 this hab
      by_cases hl : less a b = true
      · simp [lexLess, hs, hl]
      · rw [Bool.not_eq_true] at hl
        have hf := hab.filter (eqv less a)
        rw [hst a, List.filter_cons_of_pos (by simp [eqv, h0.irrefl]), List.filter_cons_of_pos (by simp [eqv, hs, hl]), List.filter_nil] at hf
        have := List.pairwise_iff_forall_sublist.1 ih2 (hf.trans List.filter_sublist)
        simp [lexLess, hs, hl, this]
    · have e : (eqv (lexLess (less :: cmps)) x) = fun y => eqv less x y && eqv (lexLess cmps) x y := funext fun y => lexLess_eqv x y
      rw [e]
      have e1 : ∀ l : List T, l.filter (fun y => eqv less x y && eqv (lexLess cmps) x y) = (l.filter (eqv less x)).filter (eqv (lexLess cmps) x) := by
        intro l
        rw [List.filter_filter]
        congr 1; funext y; rw [Bool.and_comm]
      have e2 : ∀ l : List T, (l.filter (eqv less x)).filter (eqv (lexLess cmps) x) = (l.filter (eqv (lexLess cmps) x)).filter (eqv less x) := by
        intro l
        rw [List.filter_filter, List.filter_filter]
        congr 1; funext y; rw [Bool.and_comm]
      rw [e1, e1, hst x, e2, ih3 x, ← e2]

end Verif.SortKeys
