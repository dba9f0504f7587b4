import Verif.MapCache.Spec
import Verif.MapProg.Props
import Verif.Conc.Prod
/-!
# What is in a cache
-/
namespace Verif.MapCache
open Verif.Conc Verif.Conc.RW Verif.SyncMap Verif.SyncAny Verif.SyncKey

variable {K V : Type} [Inhabited V] {eq : K → K → Bool} {f : K → V}

theorem lookup_snoc (h : List (Op K V)) (op : Op K V) (k : K) : lookup eq (h ++ [op]) k =
    match op with
    | .set k' v => if eq k k' then some v else lookup eq h k
    | .delete k' => if eq k k' then none else lookup eq h k
    | .clear => none := by
  unfold lookup; rw [List.foldl_append]; rfl

/-- Equal keys are looked up equally. -/
theorem lookup_congr (pe : PartialEq eq) {a b : K} (hab : eq a b = true) (h : List (Op K V)) : lookup eq h a = lookup eq h b := by
  have hc : ∀ k, eq a k = eq b k := fun k => by
    cases e : eq b k
    · by_contra hne
      rw [pe.trans (pe.symm hab) (by simpa using hne)] at e; cases e
    · exact pe.trans hab e
  induction h using List.reverseRecOn with
  | nil => rfl
  | append_singleton h op ih => rw [lookup_snoc, lookup_snoc]; cases op <;> simp only [hc, ih]

/-- The cache has values of `f` only. -/
def Right (eq : K → K → Bool) (f : K → V) (h : List (Op K V)) : Prop := ∀ k v, lookup eq h k = some v → v = f k

theorem right_nil : Right eq f [] := fun k v h => by cases h

theorem right_set (hf : Respects eq f) {h : List (Op K V)} (hr : Right eq f h) (k : K) : Right eq f (h ++ [.set k (f k)]) := by
  intro k' v hv
  rw [lookup_snoc] at hv
  simp only at hv
  split at hv
  · rename_i e; cases hv; exact (hf _ _ e).symm
  · exact hr k' v hv

theorem right_delete {h : List (Op K V)} (hr : Right eq f h) (k : K) : Right eq f (h ++ [.delete k]) := by
  intro k' v hv
  rw [lookup_snoc] at hv
  simp only at hv
  split at hv
  · cases hv
  · exact hr k' v hv

theorem right_clear {h : List (Op K V)} : Right eq f (h ++ [.clear]) := by
  intro k' v hv
  rw [lookup_snoc] at hv
  cases hv

/-- What holds of every state of a cache with drops. -/
structure Inv (eq : K → K → Bool) (f : K → V) (prog : Nat → List (Req K)) (a : List (Op K V) × (Nat → Loc K V)) : Prop where
  right : Right eq f a.1
  todo : ∀ t, ∃ done, prog t = done ++ (a.2 t).todo ∧ List.Forall₂ (RightOrZero f) (looks done) (a.2 t).res

/-- And without: in addition what was found or computed is there, and everything returned is right. -/
structure Inv2 (eq : K → K → Bool) (f : K → V) (prog : Nat → List (Req K)) (a : List (Op K V) × (Nat → Loc K V)) : Prop where
  right : Right eq f a.1
  todo : ∀ t, ∃ done, prog t = done ++ (a.2 t).todo ∧ (a.2 t).res = (looks done).map f
  hit : ∀ t k rs, (a.2 t).todo = .look k :: rs → (a.2 t).ph = .hit → (lookup eq a.1 k).isSome
  comp : ∀ t k, k ∈ (a.2 t).comp → eq k k = true → (lookup eq a.1 k).isSome ∨ ((a.2 t).ph = .miss ∧ ∃ k' rs, (a.2 t).todo = .look k' :: rs ∧ eq k k' = true)
  once : ∀ t, (a.2 t).comp.Pairwise (fun a b => eq a b = false)

theorem looks_snoc (rs : List (Req K)) (r : Req K) : looks (rs ++ [r]) = looks rs ++ looks [r] := by
  unfold looks; rw [List.filterMap_append]

theorem inv_step (hf : Respects eq f) {prog : Nat → List (Req K)} {t : Nat} {a b : List (Op K V) × (Nat → Loc K V)}
    (h : Inv eq f prog a) (st : AStep (histObj eq) (cache f) t a b) : Inv eq f prog b := by
  cases st with
  | @mk m l c r m' hc hst =>
    obtain ⟨hr, ht⟩ := h
    simp only at hr ht
    -- the goroutine itself
    have key : Right eq f m' ∧ ∃ done, prog t = done ++ (resume f (l t) r).todo ∧ List.Forall₂ (RightOrZero f) (looks done) (resume f (l t) r).res := by
      obtain ⟨done, hd, hfa⟩ := ht t
      have hc' : call f (l t) = some c := hc
      generalize hq : l t = q at *
      obtain ⟨todo, ph, res, comp⟩ := q
      simp only at hd hfa
      match todo, ph with
      | [], _ => cases hc'
      | .look k :: rs, .start =>
        cases hc'
        obtain ⟨rfl, rfl⟩ := hst
        refine ⟨hr, done, ?_, ?_⟩
        · rw [hd]; simp only [resume]; split <;> rfl
        · simp only [resume]; split <;> exact hfa
      | .look k :: rs, .hit =>
        cases hc'
        obtain ⟨rfl, rfl⟩ := hst
        refine ⟨hr, done ++ [.look k], by rw [hd]; simp [resume], ?_⟩
        rw [looks_snoc]
        refine List.rel_append hfa (.cons ?_ .nil)
        cases e : lookup eq m' k with
        | none => exact .inr (by simp)
        | some v => exact .inl (by simpa using hr k v e)
      | .look k :: rs, .miss =>
        cases hc'
        obtain ⟨rfl, rfl⟩ := hst
        refine ⟨right_set hf hr k, done ++ [.look k], by rw [hd]; simp [resume], ?_⟩
        rw [looks_snoc]
        exact List.rel_append hfa (.cons (.inl rfl) .nil)
      | .drop k :: rs, ph =>
        cases hc'
        obtain ⟨rfl, rfl⟩ := hst
        refine ⟨right_delete hr k, done ++ [.drop k], by rw [hd]; simp [resume], ?_⟩
        rw [looks_snoc]
        simpa [looks, resume] using hfa
      | .clear :: rs, ph =>
        cases hc'
        obtain ⟨rfl, rfl⟩ := hst
        refine ⟨right_clear, done ++ [.clear], by rw [hd]; simp [resume], ?_⟩
        rw [looks_snoc]
        simpa [looks, resume] using hfa
    refine ⟨key.1, fun u => ?_⟩
    by_cases e : u = t
    · subst e; simp only [setLoc_same]; exact key.2
    · simp only [setLoc_ne _ _ e]; exact ht u

theorem isSome_set {h : List (Op K V)} {k : K} (hs : (lookup eq h k).isSome) (k' : K) (v : V) : (lookup eq (h ++ [.set k' v]) k).isSome := by
  rw [lookup_snoc]
  simp only
  split
  · rfl
  · exact hs

theorem inv2_step (pe : PartialEq eq) (hf : Respects eq f) {prog : Nat → List (Req K)} (hk : ∀ t, Keeps (prog t)) {t : Nat}
    {a b : List (Op K V) × (Nat → Loc K V)} (h : Inv2 eq f prog a) (st : AStep (histObj eq) (cache f) t a b) : Inv2 eq f prog b := by
  cases st with
  | @mk m l c r m' hc hst =>
    obtain ⟨hr, ht, hh, hco, ho⟩ := h
    simp only at hr ht hh hco ho
    have key : Right eq f m' ∧ (∀ k, (lookup eq m k).isSome → (lookup eq m' k).isSome) ∧
        (∃ done, prog t = done ++ (resume f (l t) r).todo ∧ (resume f (l t) r).res = (looks done).map f) ∧
        (∀ k rs, (resume f (l t) r).todo = .look k :: rs → (resume f (l t) r).ph = .hit → (lookup eq m' k).isSome) ∧
        (∀ k, k ∈ (resume f (l t) r).comp → eq k k = true → (lookup eq m' k).isSome ∨
          ((resume f (l t) r).ph = .miss ∧ ∃ k' rs, (resume f (l t) r).todo = .look k' :: rs ∧ eq k k' = true)) ∧
        (resume f (l t) r).comp.Pairwise (fun a b => eq a b = false) := by
      obtain ⟨done, hd, hfa⟩ := ht t
      have hht := hh t
      have hct := hco t
      have hot := ho t
      have hc' : call f (l t) = some c := hc
      generalize hq : l t = q at *
      obtain ⟨todo, ph, res, comp⟩ := q
      simp only at hd hfa hht hct hot
      match todo, ph with
      | [], _ => cases hc'
      | .look k :: rs, .start =>
        cases hc'
        obtain ⟨rfl, rfl⟩ := hst
        have hin : ∀ k0, k0 ∈ comp → eq k0 k0 = true → (lookup eq m' k0).isSome := fun k0 h1 h2 => by
          rcases hct k0 h1 h2 with h | ⟨h, _⟩
          · exact h
          · cases h
        cases e : (lookup eq m' k).isSome with
        | true =>
          refine ⟨hr, fun _ h => h, ⟨done, hd, hfa⟩, ?_, fun k0 h1 h2 => .inl (hin k0 h1 h2), hot⟩
          intro k0 rs0 h1 _
          cases h1
          exact e
        | false =>
          refine ⟨hr, fun _ h => h, ⟨done, hd, hfa⟩, fun k0 rs0 _ h2 => (by cases h2), fun k0 h1 h2 => ?_, ?_⟩
          · rcases List.mem_append.1 h1 with h1 | h1
            · exact .inl (hin k0 h1 h2)
            · cases List.mem_singleton.1 h1
              exact .inr ⟨rfl, k, rs, rfl, h2⟩
          · refine List.pairwise_append.2 ⟨hot, List.pairwise_singleton _ _, fun k0 h1 k1 h2 => ?_⟩
            cases List.mem_singleton.1 h2
            by_contra hne
            have h3 : eq k0 k = true := by simpa using hne
            have h4 := hin k0 h1 (pe.trans h3 (pe.symm h3))
            rw [lookup_congr pe h3, e] at h4
            cases h4
      | .look k :: rs, .hit =>
        cases hc'
        obtain ⟨rfl, rfl⟩ := hst
        obtain ⟨v, hv⟩ := Option.isSome_iff_exists.1 (hht k rs rfl rfl)
        refine ⟨hr, fun _ h => h, ⟨done ++ [.look k], by rw [hd]; simp [resume], ?_⟩, fun k0 rs0 _ h2 => (by cases h2), fun k0 h1 h2 => ?_, hot⟩
        · rw [looks_snoc, List.map_append, ← hfa, hv, Option.getD_some, hr k v hv]; rfl
        · rcases hct k0 h1 h2 with h | ⟨h, _⟩
          · exact .inl h
          · cases h
      | .look k :: rs, .miss =>
        cases hc'
        obtain ⟨rfl, rfl⟩ := hst
        refine ⟨right_set hf hr k, fun _ h => isSome_set h _ _, ⟨done ++ [.look k], by rw [hd]; simp [resume], ?_⟩, fun k0 rs0 _ h2 => (by cases h2),
          fun k0 h1 h2 => .inl ?_, hot⟩
        · rw [looks_snoc, List.map_append, ← hfa]; rfl
        · rcases hct k0 h1 h2 with h | ⟨_, k', rs', h, h3⟩
          · exact isSome_set h _ _
          · cases h
            rw [lookup_snoc]
            simp [h3]
      | .drop k :: rs, ph =>
        obtain ⟨k', hk'⟩ := hk t (.drop k) (by rw [hd]; simp)
        cases hk'
      | .clear :: rs, ph =>
        obtain ⟨k', hk'⟩ := hk t .clear (by rw [hd]; simp)
        cases hk'
    obtain ⟨k1, k2, k3, k4, k5, k6⟩ := key
    refine ⟨k1, fun u => ?_, fun u => ?_, fun u => ?_, fun u => ?_⟩ <;> by_cases e : u = t
    · subst e; simp only [setLoc_same]; exact k3
    · simp only [setLoc_ne _ _ e]; exact ht u
    · subst e; simp only [setLoc_same]; exact k4
    · simp only [setLoc_ne _ _ e]; exact fun k rs h1 h2 => k2 k (hh u k rs h1 h2)
    · subst e; simp only [setLoc_same]; exact k5
    · simp only [setLoc_ne _ _ e]
      intro k h1 h2
      rcases hco u k h1 h2 with h | h
      · exact .inl (k2 k h)
      · exact .inr h
    · subst e; simp only [setLoc_same]; exact k6
    · simp only [setLoc_ne _ _ e]; exact ho u

theorem inv_reach (hf : Respects eq f) {prog : Nat → List (Req K)} {a : List (Op K V) × (Nat → Loc K V)}
    (h : AReach (histObj eq) (cache f) (fun t => fresh (prog t)) a) : Inv eq f prog a := by
  induction h with
  | start => exact ⟨right_nil, fun t => ⟨[], rfl, .nil⟩⟩
  | step _ st ih => exact inv_step hf ih st

theorem inv2_reach (pe : PartialEq eq) (hf : Respects eq f) {prog : Nat → List (Req K)} (hk : ∀ t, Keeps (prog t))
    {a : List (Op K V) × (Nat → Loc K V)} (h : AReach (histObj eq) (cache f) (fun t => fresh (prog t)) a) : Inv2 eq f prog a := by
  induction h with
  | start => exact ⟨right_nil, fun t => ⟨[], rfl, rfl⟩, fun t k rs _ h => (by cases h), fun t k h => (by cases h), fun t => .nil⟩
  | step _ st ih => exact inv2_step pe hf hk ih st

/-- A return adds to what was returned and computed. -/
theorem resume_grows (q : Loc K V) (r : Res K V) : q.res <+: (resume f q r).res ∧ q.comp <+: (resume f q r).comp := by
  obtain ⟨todo, ph, res, comp⟩ := q
  unfold resume
  split <;> simp
  split <;> simp

theorem view_grows (q : Loc K V) (pc : Pc (List (K × V)) (Call K V) (Res K V)) :
    q.res <+: (view (cache f) q pc).res ∧ q.comp <+: (view (cache f) q pc).comp := by
  cases pc with
  | held _ _ r => exact resume_grows q r
  | out _ _ r => exact resume_grows q r
  | _ => exact ⟨List.prefix_rfl, List.prefix_rfl⟩

/-! ## With `Get` alone -/

structure Inv1 (eq : K → K → Bool) (f : K → V) (prog : Nat → List (Req K)) (a : List (Op K V) × (Nat → Loc K V)) : Prop where
  right : Right eq f a.1
  todo : ∀ t, ∃ done, prog t = done ++ (a.2 t).todo ∧ (a.2 t).res = (looks done).map f

theorem inv1_step [DecidableEq V] (hf : Respects eq f) {prog : Nat → List (Req K)} {t : Nat}
    {a b : List (Op K V) × (Nat → Loc K V)} (h : Inv1 eq f prog a) (st : AStep (histObj eq) (cache1 f) t a b) : Inv1 eq f prog b := by
  cases st with
  | @mk m l c r m' hc hst =>
    obtain ⟨hr, ht⟩ := h
    simp only at hr ht
    have key : Right eq f m' ∧ ∃ done, prog t = done ++ (resume1 f (l t) r).todo ∧ (resume1 f (l t) r).res = (looks done).map f := by
      obtain ⟨done, hd, hfa⟩ := ht t
      have hc' : call1 f (l t) = some c := hc
      generalize hq : l t = q at *
      obtain ⟨todo, ph, res, comp⟩ := q
      simp only at hd hfa
      have look : ∀ k rs ph, prog t = done ++ .look k :: rs → (ph = .start ∨ ph = .hit) → c = .get k → Right eq f m' ∧ ∃ done,
          prog t = done ++ (resume1 f ⟨.look k :: rs, ph, res, comp⟩ r).todo ∧ (resume1 f ⟨.look k :: rs, ph, res, comp⟩ r).res = (looks done).map f := by
        intro k rs ph hd hph hc
        subst hc
        obtain ⟨rfl, rfl⟩ := hst
        have e1 : resume1 f ⟨.look k :: rs, ph, res, comp⟩ (.val ((lookup eq m' k).getD default)) =
            if (lookup eq m' k).getD default = default then ⟨.look k :: rs, .miss, res, comp ++ [k]⟩
            else ⟨rs, .start, res ++ [(lookup eq m' k).getD default], comp⟩ := by rcases hph with rfl | rfl <;> rfl
        rw [e1]
        by_cases e : (lookup eq m' k).getD default = default
        · rw [if_pos e]
          exact ⟨hr, done, hd, hfa⟩
        · rw [if_neg e]
          cases hl : lookup eq m' k with
          | none => rw [hl] at e; exact absurd rfl e
          | some v =>
            refine ⟨hr, done ++ [.look k], by rw [hd]; simp, ?_⟩
            rw [looks_snoc, List.map_append, ← hfa, hr k v hl]
            rfl
      match todo, ph with
      | [], _ => cases hc'
      | .look k :: rs, .start => cases hc'; exact look k rs .start hd (.inl rfl) rfl
      | .look k :: rs, .hit => cases hc'; exact look k rs .hit hd (.inr rfl) rfl
      | .look k :: rs, .miss =>
        cases hc'
        obtain ⟨rfl, rfl⟩ := hst
        refine ⟨right_set hf hr k, done ++ [.look k], by rw [hd]; simp [resume1], ?_⟩
        rw [looks_snoc, List.map_append, ← hfa]; rfl
      | .drop k :: rs, ph =>
        cases hc'
        obtain ⟨rfl, rfl⟩ := hst
        refine ⟨right_delete hr k, done ++ [.drop k], by rw [hd]; simp [resume1], ?_⟩
        rw [looks_snoc]
        simpa [looks, resume1] using hfa
      | .clear :: rs, ph =>
        cases hc'
        obtain ⟨rfl, rfl⟩ := hst
        refine ⟨right_clear, done ++ [.clear], by rw [hd]; simp [resume1], ?_⟩
        rw [looks_snoc]
        simpa [looks, resume1] using hfa
    refine ⟨key.1, fun u => ?_⟩
    by_cases e : u = t
    · subst e; simp only [setLoc_same]; exact key.2
    · simp only [setLoc_ne _ _ e]; exact ht u

theorem inv1_reach [DecidableEq V] (hf : Respects eq f) {prog : Nat → List (Req K)} {a : List (Op K V) × (Nat → Loc K V)}
    (h : AReach (histObj eq) (cache1 f) (fun t => fresh (prog t)) a) : Inv1 eq f prog a := by
  induction h with
  | start => exact ⟨right_nil, fun t => ⟨[], rfl, rfl⟩⟩
  | step _ st ih => exact inv1_step hf ih st

theorem resume1_grows [DecidableEq V] (q : Loc K V) (r : Res K V) : q.res <+: (resume1 f q r).res := by
  obtain ⟨todo, ph, res, comp⟩ := q
  unfold resume1
  split <;> simp
  split <;> simp

theorem view1_grows [DecidableEq V] (q : Loc K V) (pc : Pc (List (K × V)) (Call K V) (Res K V)) :
    q.res <+: (view (cache1 f) q pc).res := by
  cases pc with
  | held _ _ r => exact resume1_grows q r
  | out _ _ r => exact resume1_grows q r
  | _ => exact List.prefix_rfl

/-! ## An end -/

/-- Calls left at most. -/
def Loc.cost (q : Loc K V) : Nat := 2 * q.todo.length + match q.ph with | .start => 1 | _ => 0

theorem cost_step {t : Nat} {a b : List (Op K V) × (Nat → Loc K V)} (st : AStep (histObj eq) (cache f) t a b) :
    (b.2 t).cost < (a.2 t).cost ∧ ∀ u, u ≠ t → b.2 u = a.2 u := by
  cases st with
  | @mk m l c r m' hc hst =>
    refine ⟨?_, fun u hu => setLoc_ne _ _ hu⟩
    simp only [setLoc_same]
    have hc' : call f (l t) = some c := hc
    show (resume f (l t) r).cost < _
    generalize l t = q at hc' ⊢
    obtain ⟨todo, ph, res, comp⟩ := q
    match todo, ph with
    | [], _ => cases hc'
    | .look k :: rs, .start =>
      cases hc'
      obtain ⟨rfl, _⟩ := hst
      simp only [resume]
      split <;> simp [Loc.cost]
    | .look k :: rs, .hit =>
      cases hc'
      obtain ⟨rfl, _⟩ := hst
      simp [resume, Loc.cost]; omega
    | .look k :: rs, .miss =>
      cases hc'
      obtain ⟨rfl, _⟩ := hst
      simp [resume, Loc.cost]; omega
    | .drop k :: rs, ph =>
      cases hc'
      simp [resume, Loc.cost]
    | .clear :: rs, ph =>
      cases hc'
      simp [resume, Loc.cost]

end Verif.MapCache
