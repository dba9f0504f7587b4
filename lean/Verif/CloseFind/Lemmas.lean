import Verif.CloseFind.Spec
import Verif.ClosePanic.Props
/-!
# Lemmas for C133
-/
namespace Verif.CloseFind

theorem sub_list {es : List Err} {e : Err} (h : Sub (.list es) e) : e = .list es := by
  cases h; rfl

theorem finds_list (t : Nat) (es : List Err) : ¬ Finds t (.list es) := by
  rintro ⟨id, m, kids, h, -⟩
  cases h

theorem finds_node (t id : Nat) (m : Nat → Bool) (kids : List Err) :
    Finds t (.node id m kids) ↔ (id = t ∨ m t = true) ∨ ∃ k ∈ kids, Finds t k := by
  constructor
  · rintro ⟨id', m', kids', h, ht⟩
    cases h with
    | refl => exact .inl ht
    | step hk h => exact .inr ⟨_, hk, _, _, _, h, ht⟩
  · rintro (h | ⟨k, hk, id', m', kids', h, ht⟩)
    · exact ⟨_, _, _, .refl _, h⟩
    · exact ⟨_, _, _, .step hk h, ht⟩

mutual
theorem isErr_iff (t : Nat) : ∀ e : Err, isErr t e = true ↔ Finds t e
  | .list es => by simp [isErr, finds_list]
  | .node id m kids => by
    rw [finds_node, isErr, Bool.or_eq_true, Bool.or_eq_true, isAny_iff t kids]
    simp

theorem isAny_iff (t : Nat) : ∀ es : List Err, isAny t es = true ↔ ∃ e ∈ es, Finds t e
  | [] => by simp [isAny]
  | e :: es => by
    rw [isAny, Bool.or_eq_true, isErr_iff t e, isAny_iff t es]
    simp
end

mutual
theorem asList_none : ∀ e : Err, asList e = none ↔ ∀ es, ¬ Sub e (.list es)
  | .list es => by
    simp only [asList, reduceCtorEq, false_iff, not_forall, not_not]
    exact ⟨es, .refl _⟩
  | .node id m kids => by
    rw [asList, asAny_none kids]
    constructor
    · intro h es hs
      cases hs with
      | step hk hs => exact h _ hk es hs
    · intro h k hk es hs
      exact h es (.step hk hs)

theorem asAny_none : ∀ ks : List Err, asAny ks = none ↔ ∀ k ∈ ks, ∀ es, ¬ Sub k (.list es)
  | [] => by simp [asAny]
  | k :: ks => by
    have h1 := asList_none k
    have h2 := asAny_none ks
    rw [asAny]
    cases hk : asList k with
    | some r =>
      simp only [reduceCtorEq, List.mem_cons, forall_eq_or_imp, false_iff, not_and]
      intro h
      rw [h1.2 h] at hk
      cases hk
    | none =>
      simp only [List.mem_cons, forall_eq_or_imp]
      rw [h2]
      exact ⟨fun h => ⟨h1.1 hk, h⟩, fun h => h.2⟩
end

theorem asAny_append (ls rs : List Err) (h : asAny ls = none) : asAny (ls ++ rs) = asAny rs := by
  induction ls with
  | nil => rfl
  | cons l ls ih =>
    rw [asAny] at h
    rw [List.cons_append, asAny]
    cases hl : asList l with
    | some r => rw [hl] at h; cases h
    | none => rw [hl] at h; exact ih h

/-- A list at a place without lists on its left is found. -/
theorem asList_plug (c : Ctx) (hc : c.First) (es : List Err) : asList (c.plug (.list es)) = some es := by
  induction c with
  | here => rfl
  | under id m left c right ih =>
    rw [Ctx.plug, asList, asAny_append _ _ ((asAny_none left).2 hc.1), asAny, ih hc.2]

mutual
theorem asList_some (es : List Err) : ∀ e : Err, asList e = some es → ∃ c : Ctx, c.First ∧ c.plug (.list es) = e
  | .list es', h => by
    simp only [asList, Option.some.injEq] at h
    subst h
    exact ⟨.here, trivial, rfl⟩
  | .node id m kids, h => by
    rw [asList] at h
    obtain ⟨left, c, right, e, h1, h2⟩ := asAny_some es kids h
    exact ⟨.under id m left c right, ⟨(asAny_none left).1 h1, h2⟩, by rw [Ctx.plug, e]⟩

theorem asAny_some (es : List Err) : ∀ ks : List Err, asAny ks = some es → ∃ (left : List Err) (c : Ctx) (right : List Err),
    ks = left ++ c.plug (.list es) :: right ∧ asAny left = none ∧ c.First
  | [], h => by simp [asAny] at h
  | k :: ks, h => by
    rw [asAny] at h
    cases hk : asList k with
    | some r =>
      rw [hk] at h
      simp only [Option.some.injEq] at h
      subst h
      obtain ⟨c, hc, e⟩ := asList_some r k hk
      exact ⟨[], c, ks, by rw [e]; rfl, rfl, hc⟩
    | none =>
      rw [hk] at h
      obtain ⟨left, c, right, e, h1, h2⟩ := asAny_some es ks h
      exact ⟨k :: left, c, right, by rw [e]; rfl, by rw [asAny, hk]; exact h1, h2⟩
end

/-- What `errors.Is` finds around a list does not depend on the list. -/
theorem isErr_plug (t : Nat) (c : Ctx) (es es' : List Err) : isErr t (c.plug (.list es)) = isErr t (c.plug (.list es')) := by
  induction c with
  | here => rfl
  | under id m left c right ih =>
    have : ∀ l, isAny t (l ++ c.plug (.list es) :: right) = isAny t (l ++ c.plug (.list es') :: right) := by
      intro l
      induction l with
      | nil => rw [List.nil_append, List.nil_append, isAny, isAny, ih]
      | cons x l ihl => rw [List.cons_append, List.cons_append, isAny, isAny, ihl]
    rw [Ctx.plug, Ctx.plug, isErr, isErr, this]

end Verif.CloseFind
