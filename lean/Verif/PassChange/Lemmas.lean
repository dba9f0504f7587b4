import Verif.PassChange.Spec
import Verif.UserStore.Lemmas
/-!
# Lemmas for C183
-/
namespace Verif.PassChange
open Verif.Conc Verif.Conc.RW Verif.Conc.Sect Verif.PassHash Verif.UserStore Verif.Go Relation
open Verif.SyncMap (Call Res)

variable {U : Type} [DecidableEq U] {K : Kdf} {u : U} {old : Bytes}

theorem honest : Honest (SyncKey.syncmap same) (changing K u) (fun _ => False) where
  enter := by intro q h; cases q <;> cases h
  reads := by intro q c h; exact h.elim
  stays := by intro q r h; exact h.elim

def Loc.rank : Loc → Nat
  | .give _ => 1
  | .ask .. => 2
  | .put _ => 1
  | _ => 0

theorem next_cases (K : Kdf) (old new : Bytes) (level : Int) (rnd : Rand) (h : Bytes) :
    next K old new level rnd h = .no ∨
      ∃ r, next K old new level rnd h = .put r ∧ verify K old (.of h) = .ret none ∧ hashPw K rnd new level = .ret (.ok r) := by
  unfold next
  split
  · rename_i e
    split
    · rename_i r e'; exact .inr ⟨r, rfl, e, e'⟩
    · exact .inl rfl
  · exact .inl rfl

theorem bounded : Bounded (changing K u) Loc.rank where
  call := by
    intro q c r h
    cases q with
    | give => simp [changing, Loc.rank]
    | put => simp [changing, Loc.rank]
    | ask old new level rnd =>
      cases r with
      | val h =>
        show (next K old new level rnd h).rank < 2
        rcases next_cases K old new level rnd h with e | ⟨r, e, -⟩ <;> rw [e] <;> simp [Loc.rank]
      | _ => simp [changing, Loc.rank]
    | _ => cases h
  leave := fun q => Nat.le_refl _
  some := by intro q w h; cases q <;> first | (cases h; done) | nofun

/-- What is stored for the user. -/
def cur (u : U) (m : List (SyncAny.Op U Bytes)) : Bytes := (SyncAny.lookup same m u).getD []

theorem cur_set (u : U) (m : List (SyncAny.Op U Bytes)) (r : Bytes) : cur u (m ++ [.set u r]) = r := by
  unfold cur; rw [MapFlag.lookup_snoc]; simp [same]

abbrev Calls (K : Kdf) (u : U) := ReflTransGen (CallStep (SyncKey.histObj same) (changing K u))

/-- No calls from a state that makes none. -/
theorem stays {m m' : List (SyncAny.Op U Bytes)} {q q' : Loc} (hq : (changing K u).call q = none) (h : Calls K u (m, q) (m', q')) : m' = m ∧ q' = q := by
  rcases h.cases_head with e | ⟨b, ⟨c, r, h1, -⟩, -⟩
  · cases e; exact ⟨rfl, rfl⟩
  · rw [hq] at h1; cases h1

theorem path_give {m m' : List (SyncAny.Op U Bytes)} {r : Bytes} {q : Loc} (h : Calls K u (m, .give r) (m', q)) (hq : (changing K u).call q = none) :
    q = .gave ∧ m' = m ++ [.set u r] := by
  rcases h.cases_head with e | ⟨⟨mb, qb⟩, ⟨c, x, h1, h2, h3⟩, h4⟩
  · cases e; cases hq
  · cases h1
    cases h3
    obtain ⟨-, rfl⟩ := h2
    obtain ⟨rfl, rfl⟩ := stays (q := .gave) rfl h4
    exact ⟨rfl, rfl⟩

theorem path_ask {m m' : List (SyncAny.Op U Bytes)} {new : Bytes} {level : Int} {rnd : Rand} {q : Loc} (h : Calls K u (m, .ask old new level rnd) (m', q))
    (hq : (changing K u).call q = none) :
    (q = .no ∧ m' = m) ∨ (q = .yes ∧ verify K old (.of (cur u m)) = .ret none ∧ ∃ r, hashPw K rnd new level = .ret (.ok r) ∧ m' = m ++ [.set u r]) := by
  rcases h.cases_head with e | ⟨⟨mb, qb⟩, ⟨c, x, h1, h2, h3⟩, h4⟩
  · cases e; cases hq
  · cases h1
    obtain ⟨rfl, e⟩ := h2
    replace e : mb = m := e
    subst e
    replace h3 : qb = next K old new level rnd (cur u mb) := h3
    rcases next_cases K old new level rnd (cur u mb) with e | ⟨r, e, e1, e2⟩
    · rw [e] at h3
      subst h3
      obtain ⟨rfl, rfl⟩ := stays (q := .no) rfl h4
      exact .inl ⟨rfl, rfl⟩
    · rw [e] at h3
      subst h3
      rcases h4.cases_head with e | ⟨⟨mc, qc⟩, ⟨c, x, h1, h2, h3⟩, h5⟩
      · cases e; cases hq
      · cases h1
        cases h3
        obtain ⟨-, rfl⟩ := h2
        obtain ⟨rfl, rfl⟩ := stays (q := .yes) rfl h5
        exact .inr ⟨rfl, e1, r, e2, rfl⟩

/-- Between sections: until a change goes through nobody has; after that the old password is no good. -/
structure Inv (K : Kdf) (u : U) (old : Bytes) (m : List (SyncAny.Op U Bytes)) (l : Nat → Loc) : Prop where
  zero : (∃ r, l 0 = .give r) ∨ l 0 = .gave
  rest : ∀ t, t ≠ 0 → l t = .no ∨ l t = .yes ∨ ∃ new level rnd, l t = .ask old new level rnd ∧ (rnd 16).1.length = 16 ∧ ¬ SameKey K level rnd new old
  before : (∃ r, l 0 = .give r) → cur u m = [] ∧ ∀ t, l t ≠ .yes
  once : (∃ t, l t = .yes) → verify K old (.of (cur u m)) ≠ .ret none
  one : ∀ t t', l t = .yes → l t' = .yes → t = t'

theorem inv (hK : ∀ p s t m th l, (K p s t m th l).length = l) {l : Nat → Loc} (hb : Begin K old l) {a : List (SyncAny.Op U Bytes) × (Nat → Loc)}
    (h : SerReach (SyncKey.histObj same) (changing K u) l a) : Inv K u old a.1 a.2 := by
  induction h with
  | start =>
    have ny : ∀ t, l t ≠ .yes := by
      intro t e
      by_cases h0 : t = 0
      · obtain ⟨r, e'⟩ := hb.1
        rw [h0, e'] at e; cases e
      · rcases hb.2 t h0 with e' | ⟨_, _, _, e', -⟩ <;> rw [e'] at e <;> cases e
    exact ⟨.inl hb.1, fun t ht => (hb.2 t ht).imp_right .inr, fun _ => ⟨rfl, ny⟩, fun ⟨t, e⟩ => absurd e (ny t), fun t _ e => absurd e (ny t)⟩
  | @step a b t hr st ih =>
    cases st with
    | @mk m l' w m' q h1 h2 h3 _ =>
      simp only at ih ⊢
      show Inv K u old m' (setLoc l' t q)
      by_cases h0 : t = 0
      · subst h0
        rcases ih.zero with ⟨r, e⟩ | e
        · obtain ⟨c0, ny⟩ := ih.before ⟨r, e⟩
          rw [e] at h2
          obtain ⟨rfl, rfl⟩ := path_give h2 h3
          have ny' : ∀ t, setLoc l' 0 Loc.gave t ≠ .yes := by
            intro t
            unfold setLoc
            split
            · nofun
            · exact ny t
          exact ⟨.inr (by simp [setLoc]), fun t ht => by simpa [setLoc, ht] using ih.rest t ht, fun ⟨r, e⟩ => by simp [setLoc] at e,
            fun ⟨t, e⟩ => absurd e (ny' t), fun t _ e => absurd e (ny' t)⟩
        · rw [e] at h1; cases h1
      · rcases ih.rest t h0 with e | e | ⟨new, level, rnd, e, hs, hk⟩
        · rw [e] at h1; cases h1
        · rw [e] at h1; cases h1
        · rw [e] at h2
          have z : setLoc l' t q 0 = l' 0 := by simp [setLoc, Ne.symm h0]
          rcases path_ask h2 h3 with ⟨rfl, rfl⟩ | ⟨rfl, hv, r, hr', rfl⟩
          · have old' : ∀ t', setLoc l' t Loc.no t' = .yes → l' t' = .yes := by
              intro t' e
              unfold setLoc at e
              split at e
              · cases e
              · exact e
            refine ⟨by rw [z]; exact ih.zero, fun t' ht => ?_, fun hg => ?_, fun ⟨t', e⟩ => ih.once ⟨t', old' t' e⟩, fun t1 t2 e1 e2 => ih.one _ _ (old' _ e1) (old' _ e2)⟩
            · by_cases ht' : t' = t
              · exact .inl (by simp [setLoc, ht'])
              · simpa [setLoc, ht'] using ih.rest t' ht
            · rw [z] at hg
              exact ⟨(ih.before hg).1, fun t' e => (ih.before hg).2 t' (old' t' e)⟩
          · have ny : ∀ t', l' t' ≠ .yes := fun t' e => ih.once ⟨t', e⟩ hv
            have only : ∀ t', setLoc l' t Loc.yes t' = .yes → t' = t := by
              intro t' e
              unfold setLoc at e
              split at e
              · assumption
              · exact absurd e (ny t')
            refine ⟨by rw [z]; exact ih.zero, fun t' ht => ?_, fun hg => ?_, fun _ => ?_, fun t1 t2 e1 e2 => (only _ e1).trans (only _ e2).symm⟩
            · by_cases ht' : t' = t
              · exact .inr (.inl (by simp [setLoc, ht']))
              · simpa [setLoc, ht'] using ih.rest t' ht
            · rw [z] at hg
              rw [(ih.before hg).1, verify_nil] at hv
              cases hv
            · rw [cur_set]
              obtain ⟨e, he, hd⟩ := decides hK (q := .setPassword u new level rnd) (u := u) (c := .set u r) (by simp only [asks, hr']) rfl
                (fun _ _ _ _ e => by cases e; exact hs) old
              replace he : verify K old (.of r) = .ret e := he
              rw [he, hd.2 hk]
              nofun

/-- Who has gone through has the record of its new password stored. -/
theorem winner (hK : ∀ p s t m th l, (K p s t m th l).length = l) {l : Nat → Loc} (hb : Begin K old l) {a : List (SyncAny.Op U Bytes) × (Nat → Loc)}
    (h : SerReach (SyncKey.histObj same) (changing K u) l a) :
    (∀ t, a.2 t = l t ∨ a.2 t = .gave ∨ a.2 t = .no ∨ a.2 t = .yes) ∧
    ∀ t, a.2 t = .yes → ∃ new level rnd r, l t = .ask old new level rnd ∧ hashPw K rnd new level = .ret (.ok r) ∧ SyncAny.lookup same a.1 u = some r := by
  induction h with
  | start =>
    refine ⟨fun t => .inl rfl, fun t e => ?_⟩
    replace e : l t = .yes := e
    by_cases h0 : t = 0
    · obtain ⟨r, e'⟩ := hb.1
      rw [h0, e'] at e; cases e
    · rcases hb.2 t h0 with e' | ⟨_, _, _, e', -⟩ <;> rw [e'] at e <;> cases e
  | @step a b t hr st ih =>
    have iv := inv hK hb hr
    have iv' := inv hK hb (hr.step st)
    cases st with
    | @mk m l' w m' q h1 h2 h3 _ =>
      simp only at ih iv iv' ⊢
      obtain ⟨ih1, ih2⟩ := ih
      replace iv' : Inv K u old m' (setLoc l' t q) := iv'
      show (∀ t', setLoc l' t q t' = l t' ∨ _) ∧ ∀ t', setLoc l' t q t' = .yes → _
      have locs : (q = .gave ∨ q = .no ∨ q = .yes) → ∀ t', setLoc l' t q t' = l t' ∨ setLoc l' t q t' = .gave ∨ setLoc l' t q t' = .no ∨ setLoc l' t q t' = .yes := by
        intro hq t'
        by_cases e : t' = t
        · right; simpa [setLoc, e] using hq
        · simpa [setLoc, e] using ih1 t'
      by_cases h0 : t = 0
      · subst h0
        rcases iv.zero with ⟨r, e⟩ | e
        · obtain ⟨-, ny⟩ := iv.before ⟨r, e⟩
          rw [e] at h2
          obtain ⟨rfl, rfl⟩ := path_give h2 h3
          refine ⟨locs (.inl rfl), fun t' e' => ?_⟩
          by_cases h' : t' = 0
          · simp [setLoc, h'] at e'
          · simp [setLoc, h'] at e'; exact absurd e' (ny t')
        · rw [e] at h1; cases h1
      · rcases iv.rest t h0 with e | e | ⟨new, level, rnd, e, hs, hk⟩
        · rw [e] at h1; cases h1
        · rw [e] at h1; cases h1
        · have e0 : l t = .ask old new level rnd := by
            rcases ih1 t with h | h | h | h <;> rw [e] at h
            · exact h.symm
            all_goals cases h
          rw [e] at h2
          rcases path_ask h2 h3 with ⟨rfl, rfl⟩ | ⟨rfl, hv, r, hr', rfl⟩
          · refine ⟨locs (.inr (.inl rfl)), fun t' e' => ?_⟩
            by_cases h' : t' = t
            · simp [setLoc, h'] at e'
            · simp [setLoc, h'] at e'; exact ih2 t' e'
          · refine ⟨locs (.inr (.inr rfl)), fun t' e' => ?_⟩
            have : t' = t := iv'.one t' t e' (by simp [setLoc])
            subst this
            exact ⟨new, level, rnd, r, e0, hr', by rw [MapFlag.lookup_snoc]; simp [same]⟩

/-- As long as nobody has gone through the first record is there. -/
theorem unchanged (hK : ∀ p s t m th l, (K p s t m th l).length = l) {l : Nat → Loc} (hb : Begin K old l) {r0 : Bytes} (hr0 : l 0 = .give r0)
    {a : List (SyncAny.Op U Bytes) × (Nat → Loc)} (h : SerReach (SyncKey.histObj same) (changing K u) l a) (hy : ∀ t, a.2 t ≠ .yes) (hg : a.2 0 = .gave) :
    SyncAny.lookup same a.1 u = some r0 := by
  induction h with
  | start => rw [show l 0 = .gave from hg] at hr0; cases hr0
  | @step a b t hr st ih =>
    have iv := inv hK hb hr
    have wi := (winner hK hb hr).1
    cases st with
    | @mk m l' w m' q h1 h2 h3 _ =>
      simp only at ih iv wi ⊢
      replace hy : ∀ t', setLoc l' t q t' ≠ .yes := hy
      replace hg : setLoc l' t q 0 = .gave := hg
      by_cases h0 : t = 0
      · subst h0
        rcases iv.zero with ⟨r, e⟩ | e
        · have : r = r0 := by
            rcases wi 0 with h | h | h | h <;> rw [e] at h
            · rw [hr0] at h; cases h; rfl
            all_goals cases h
          subst this
          rw [e] at h2
          obtain ⟨-, rfl⟩ := path_give h2 h3
          rw [MapFlag.lookup_snoc]; simp [same]
        · rw [e] at h1; cases h1
      · rcases iv.rest t h0 with e | e | ⟨new, level, rnd, e, -⟩
        · rw [e] at h1; cases h1
        · rw [e] at h1; cases h1
        · have e0 := e
          rw [e] at h2
          rcases path_ask h2 h3 with ⟨rfl, rfl⟩ | ⟨rfl, -⟩
          · refine ih (fun t' e' => ?_) (by simpa [setLoc, Ne.symm h0] using hg)
            by_cases h' : t' = t
            · rw [h', e0] at e'; cases e'
            · exact hy t' (by simpa [setLoc, h'] using e')
          · exact absurd (by simp [setLoc]) (hy t)

end Verif.PassChange
