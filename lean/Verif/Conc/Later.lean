import Verif.Conc.RWFair
/-!
# Calls that start after another call has returned

In every linearization the later call comes after the earlier one, so it is a step from a state that a run with the earlier call in it has led to.
-/
set_option linter.unusedSectionVars false
namespace Verif.Conc.RW
open Verif.Conc

variable {σ A C R U : Type} {g : Guarded σ A C R} {e : Nat → FSt σ A C R} {who : Nat → Option Nat} {o : Obj U C R}

theorem legal_split {S T : List (Nat × C × R)} {s : U} (h : Legal o (S ++ T) s) : ∃ s', Legal o S s' := by
  generalize hU : S ++ T = V at h
  induction h generalizing T with
  | nil =>
    obtain ⟨rfl, rfl⟩ := List.append_eq_nil_iff.1 hU
    exact ⟨_, .nil⟩
  | @snoc V s s' id c r hl hs ih =>
    rcases List.eq_nil_or_concat T with rfl | ⟨T', a, rfl⟩
    · rw [List.append_nil] at hU
      subst hU
      exact ⟨_, .snoc hl hs⟩
    · rw [List.concat_eq_append, ← List.append_assoc] at hU
      exact ih (List.append_inj' hU rfl).1

theorem legal_last {S : List (Nat × C × R)} {id : Nat} {c : C} {r : R} {s : U} (h : Legal o (S ++ [(id, c, r)]) s) : ∃ s', Legal o S s' ∧ o.step s' c r s := by
  generalize hU : S ++ [(id, c, r)] = V at h
  cases h with
  | nil => simp at hU
  | @snoc V s s' id' c' r' hl hs =>
    obtain ⟨h1, h2⟩ := List.append_inj' hU rfl
    cases h2
    subst h1
    exact ⟨_, hl, hs⟩

/-- A call number belongs to one call. -/
theorem unique_inv (ro : ReadsOnly g) {s : St σ A C R} (h : Reach g s) : ∀ id c c', Event.inv id c ∈ s.hist → Event.inv id c' ∈ s.hist → c = c' := by
  induction h with
  | init => intro id c c' h; simp [start] at h
  | @step s s' h st ih =>
    obtain ⟨S, i⟩ := h.inv ro
    cases st with
    | @invoke t c0 hp =>
      intro id c c' h1 h2
      simp only [List.mem_append, List.mem_singleton, Event.inv.injEq] at h1 h2
      rcases h1 with h1 | ⟨e1, rfl⟩ <;> rcases h2 with h2 | ⟨e2, rfl⟩
      · exact ih id c c' h1 h2
      · have := i.fresh id c h1; omega
      · have := i.fresh id c' h2; omega
      · rfl
    | ret hp =>
      intro id c c' h1 h2
      simp only [List.mem_append, List.mem_singleton, reduceCtorEq, or_false] at h1 h2
      exact ih id c c' h1 h2
    | _ => exact ih

/-- The history grows. -/
theorem Exec.grows (x : Exec g e who) {n m : Nat} (h : n ≤ m) : ∃ t, (e m).s.hist = (e n).s.hist ++ t := by
  induction m, h using Nat.le_induction with
  | base => exact ⟨[], by simp⟩
  | succ m hm ih =>
    obtain ⟨t, ht⟩ := ih
    cases hw : who m with
    | none => rw [x.rest m hw]; exact ⟨t, ht⟩
    | some u =>
      have st := x.step m u hw
      generalize e m = a at st ht
      generalize e (m + 1) = b at st
      cases st with
      | invoke h1 => exact ⟨t ++ [_], by simp only at ht ⊢; rw [ht, List.append_assoc]⟩
      | ret h1 => exact ⟨t ++ [_], by simp only at ht ⊢; rw [ht, List.append_assoc]⟩
      | _ => exact ⟨t, ht⟩

theorem Exec.up (x : Exec g e who) {n m : Nat} (h : n ≤ m) {ev : Event C R} (hm : ev ∈ (e n).s.hist) : ev ∈ (e m).s.hist := by
  obtain ⟨t, ht⟩ := x.grows h
  rw [ht]
  exact List.mem_append_left _ hm

/-- Every part of the history from its beginning was the whole of it at some moment. -/
theorem Exec.moment (x : Exec g e who) {n : Nat} {a b : List (Event C R)} (h : (e n).s.hist = a ++ b) : ∃ k, k ≤ n ∧ (e k).s.hist = a := by
  induction n generalizing b with
  | zero =>
    rw [x.zero] at h
    obtain ⟨rfl, -⟩ := List.append_eq_nil_iff.1 h.symm
    exact ⟨0, Nat.le_refl _, by rw [x.zero]; rfl⟩
  | succ n ih =>
    have one : (e (n + 1)).s.hist = (e n).s.hist ∨ ∃ ev, (e (n + 1)).s.hist = (e n).s.hist ++ [ev] := by
      cases hw : who n with
      | none => rw [x.rest n hw]; exact .inl rfl
      | some u =>
        have st := x.step n u hw
        generalize e n = y, e (n + 1) = z at st
        cases st <;> simp
    have ih' : ∀ {b}, (e n).s.hist = a ++ b → ∃ k, k ≤ n + 1 ∧ (e k).s.hist = a := fun h => by
      obtain ⟨k, h1, h2⟩ := ih h; exact ⟨k, by omega, h2⟩
    rcases one with o | ⟨ev, o⟩
    · exact ih' (o ▸ h)
    · rcases List.eq_nil_or_concat b with rfl | ⟨b', z, rfl⟩
      · exact ⟨n + 1, Nat.le_refl _, by rw [h, List.append_nil]⟩
      · rw [o, List.concat_eq_append, ← List.append_assoc] at h
        exact ih' (List.append_inj' h rfl).1

/-- The later call is a step from a state that a run with the earlier call in it has led to. -/
theorem Exec.later (ro : ReadsOnly g) (x : Exec g e who) {N m id id' : Nat} {c c' : C} {r r' : R} (lin : Linearizable o (e m).s.hist)
    (h1 : Event.inv id c ∈ (e N).s.hist) (h2 : Event.ret id r ∈ (e N).s.hist) (n1 : Event.inv id' c' ∉ (e N).s.hist) (n2 : Event.inv id' c' ∈ (e m).s.hist)
    (n3 : Event.ret id' r' ∈ (e m).s.hist) :
    ∃ S s s', Legal o S s ∧ (id, c, r) ∈ S ∧ (∀ y ∈ S, Event.inv y.1 y.2.1 ∈ (e m).s.hist) ∧ o.step s c' r' s' := by
  have hNm : N ≤ m := by
    by_contra hc
    exact n1 (x.up (by omega) n2)
  obtain ⟨t, ht⟩ := x.grows hNm
  obtain ⟨S, s, lin⟩ := lin
  have un := unique_inv ro (x.reach m)
  obtain ⟨c1, m1⟩ := lin.returned id r (x.up hNm h2)
  obtain ⟨c2, m2⟩ := lin.returned id' r' n3
  have e1 : c1 = c := un id _ _ (lin.invoked _ m1) (x.up hNm h1)
  have e2 : c2 = c' := un id' _ _ (lin.invoked _ m2) n2
  subst e1 e2
  have bf : Before (e m).s.hist (.ret id r) (.inv id' c2) := by
    have : Event.inv id' c2 ∈ t := by
      rw [ht] at n2
      exact (List.mem_append.1 n2).resolve_left n1
    obtain ⟨a1, a2, ha⟩ := List.append_of_mem h2
    obtain ⟨b1, b2, hb⟩ := List.append_of_mem this
    exact ⟨a1, a2 ++ b1, b2, by rw [ht, ha, hb]; simp⟩
  obtain ⟨l1, l2, l3, hS⟩ := lin.realtime _ m1 _ m2 r c2 bf
  have legal := lin.legal
  rw [show S = (l1 ++ (id, c1, r) :: l2) ++ [(id', c2, r')] ++ l3 by rw [hS]; simp] at legal
  obtain ⟨s1, legal⟩ := legal_split legal
  obtain ⟨h, legal, st⟩ := legal_last legal
  refine ⟨_, h, _, legal, by simp, fun y hy => lin.invoked y ?_, st⟩
  rw [hS]
  simp only [List.mem_append, List.mem_cons] at hy ⊢
  rcases hy with hy | hy | hy
  · exact .inl hy
  · exact .inr (.inl hy)
  · exact .inr (.inr (.inl hy))

end Verif.Conc.RW
