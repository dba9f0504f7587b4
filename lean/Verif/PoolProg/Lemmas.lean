import Verif.PoolProg.Spec
import Verif.GoPool.Props
import Verif.SyncKey.Lemmas
/-!
# Lemmas about programs in handlers
-/
namespace Verif.PoolProg
open Verif.GoPool Verif.Conc Verif.Conc.RW

variable {σ A C R P : Type} {g : Guarded σ A C R} {p : Client P C R} {entry : Nat → P} {mx : Int} {n : Nat} {l : Nat → P}
  {x x' : Sys σ A C R P}

theorem gor_setGor (s : GoPool.St) (k k' : Nat) (q : GorPc) : (s.setGor k q).gor k' = if k' = k then q else s.gor k' := rfl

theorem PStep.project (h : PStep g p entry x x') : GoPool.Step x.pool x'.pool ∨ x'.pool = x.pool := by
  cases h with
  | take h1 h2 => exact .inl (.take _ _ _ _ _ h1 h2)
  | back h1 => exact .inl (.handled _ _ _ _ _ h1)
  | pool h1 => exact .inl h1
  | prog => exact .inr rfl

theorem PReach.pool (h : PReach g p entry mx n l x) : GoPool.Reach mx n x.pool := by
  induction h with
  | start tt => exact .init tt
  | step _ st ih =>
    rcases st.project with h | h
    · exact ih.step h
    · rw [h]; exact ih

/-- Worker goroutines outside their handlers do nothing. -/
structure Ok (g : Guarded σ A C R) (p : Client P C R) (x : Sys σ A C R P) : Prop where
  fits : Fits g p x.prog
  off : ∀ k, (∀ w c j, x.pool.gor k ≠ .handling w c j) → x.prog.obj.pc (2 * k) = .idle ∧ p.call (x.prog.loc (2 * k)) = none

/-- A goroutine at the end of its program does nothing. -/
theorem off_step {s s' : CSt σ A C R P} (hs : CStep g p s s') {t : Nat} (h1 : s.obj.pc t = .idle) (h2 : p.call (s.loc t) = none) :
    s'.obj.pc t = .idle ∧ s'.loc t = s.loc t := by
  cases hs with
  | @invoke u c h3 h4 =>
    have e : t ≠ u := by rintro rfl; rw [h2] at h4; cases h4
    exact ⟨by simp only [setPc_ne _ _ e]; exact h1, rfl⟩
  | @inner o st hh =>
    refine ⟨?_, rfl⟩
    rcases inner_cases (p := p) st hh with ⟨u, q, h3, _, _, h6, _⟩ | ⟨u, id, c', acc, r, m', h3, _, rfl⟩
    · have e : t ≠ u := by rintro rfl; exact h6 h1
      simp only [h3, setPc_ne _ _ e]; exact h1
    · have e : t ≠ u := by rintro rfl; rw [h1] at h3; cases h3
      simp only [setPc_ne _ _ e]; exact h1
  | @ret u id c r h3 =>
    have e : t ≠ u := by rintro rfl; rw [h1] at h3; cases h3
    exact ⟨by simp only [setPc_ne _ _ e]; exact h1, by simp only [setLoc_ne _ _ e]⟩

theorem Ok.step (i : Ok g p x) (st : PStep g p entry x x') : Ok g p x' := by
  obtain ⟨i1, i2⟩ := i
  cases st with
  | @take k w c j h1 h2 =>
    have hk := i2 k (by rw [h1]; nofun)
    refine ⟨⟨i1.reach, fun {t c} hc => ?_⟩, fun k' hk' => ?_⟩
    · have e : t ≠ 2 * k := by rintro rfl; simp only [hk.1] at hc; cases hc
      simp only [setLoc_ne _ _ e]
      exact i1.calls hc
    · have e : k' ≠ k := by rintro rfl; exact hk' w c j (by simp [takeJob, gor_setGor])
      have := i2 k' fun w c j => by have := hk' w c j; simpa [takeJob, gor_setGor, e] using this
      refine ⟨this.1, ?_⟩
      simp only [setLoc_ne x.prog.loc (entry j) (show 2 * k' ≠ 2 * k by omega)]
      exact this.2
  | @back k w c j h1 h2 h3 =>
    refine ⟨i1, fun k' hk' => ?_⟩
    by_cases e : k' = k
    · subst e; exact ⟨h2, h3⟩
    · exact i2 k' fun w c j => by have := hk' w c j; simpa [gor_setGor, e] using this
  | @pool s h1 h2 => exact ⟨i1, fun k hk => i2 k fun w c j h => hk w c j ((h2 k w c j).2 h)⟩
  | @prog y h1 =>
    refine ⟨i1.step h1, fun k hk => ?_⟩
    obtain ⟨h2, h3⟩ := i2 k hk
    obtain ⟨h4, h5⟩ := off_step h1 h2 h3
    exact ⟨h4, by simp only [h5]; exact h3⟩

theorem PReach.ok (hl : ∀ k, p.call (l (2 * k)) = none) (h : PReach g p entry mx n l x) : Ok g p x := by
  induction h with
  | start tt => exact ⟨.start l, fun k _ => ⟨rfl, hl k⟩⟩
  | step _ st ih => exact ih.step st

/-- The locks forgotten. -/
def look (p : Client P C R) (x : Sys σ A C R P) : ASys σ P :=
  ⟨x.pool, x.prog.obj.m, fun t => view p (x.prog.loc t) (x.prog.obj.pc t)⟩

theorem look_step (ro : ReadsOnly g) (i : Ok g p x) (st : PStep g p entry x x') :
    look p x' = look p x ∨ AtStep (seqObj g) p entry (look p x) (look p x') := by
  cases st with
  | @take k w c j h1 h2 =>
    right
    have hk := (i.off k (by rw [h1]; nofun)).1
    have : (fun t => view p (setLoc x.prog.loc (2 * k) (entry j) t) (x.prog.obj.pc t)) =
        setLoc (fun t => view p (x.prog.loc t) (x.prog.obj.pc t)) (2 * k) (entry j) := by
      funext t
      by_cases e : t = 2 * k
      · subst e; simp [hk, view]
      · simp only [setLoc_ne _ _ e]
    unfold look
    simp only [this]
    exact .take (x := look p x) h1 h2
  | @back k w c j h1 h2 h3 => exact .inr (.back (x := look p x) h1 (by simp only [look, h2, view]; exact h3))
  | @pool s h1 h2 => exact .inr (.pool (x := look p x) h1 h2)
  | @prog y h1 =>
    rcases i.fits.abs_step ro h1 with e | ⟨t, ast⟩
    · left
      unfold RW.abs at e
      obtain ⟨e1, e2⟩ := Prod.mk.inj e
      unfold look
      simp only [e1, e2]
    · right
      unfold RW.abs at ast
      generalize ha : (x.prog.obj.m, fun t => view p (x.prog.loc t) (x.prog.obj.pc t)) = a at ast
      generalize hb : (y.obj.m, fun t => view p (y.loc t) (y.obj.pc t)) = b at ast
      cases ast with
      | @mk m lo c r m' hc hst =>
        obtain ⟨rfl, rfl⟩ := Prod.mk.inj ha
        obtain ⟨hy1, hy2⟩ := Prod.mk.inj hb
        unfold look
        simp only [hy1, hy2]
        exact .call (x := look p x) hc hst

theorem atomic (ro : ReadsOnly g) (hl : ∀ k, p.call (l (2 * k)) = none) (h : PReach g p entry mx n l x) :
    AtReach (seqObj g) p entry mx n l (look p x) := by
  induction h with
  | start tt => exact .start (o := seqObj g) tt
  | step hr st ih =>
    rcases look_step ro (hr.ok hl) st with e | h
    · rw [e]; exact ih
    · exact ih.step h

/-- The same with an object that simulates another. -/
theorem at_sim {τ : Type} {o : Obj σ C R} {o' : Obj τ C R} (r : σ → τ → Prop) (h0 : r o.init o'.init)
    (hs : ∀ s s' c y u, r s u → o.step s c y s' → ∃ u', o'.step u c y u' ∧ r s' u') {a : ASys σ P} (h : AtReach o p entry mx n l a) :
    ∃ m, AtReach o' p entry mx n l ⟨a.pool, m, a.loc⟩ ∧ r a.mem m := by
  induction h with
  | start tt => exact ⟨_, .start tt, h0⟩
  | step _ st ih =>
    obtain ⟨m, h1, h2⟩ := ih
    cases st with
    | take h3 h4 => exact ⟨m, h1.step (.take h3 h4), h2⟩
    | back h3 h4 => exact ⟨m, h1.step (.back h3 h4), h2⟩
    | pool h3 h4 => exact ⟨m, h1.step (.pool h3 h4), h2⟩
    | call hc hst =>
      obtain ⟨m', h3, h4⟩ := hs _ _ _ _ _ h2 hst
      exact ⟨m', h1.step (.call hc h3), h4⟩

theorem AtReach.pool {o : Obj σ C R} {a : ASys σ P} (h : AtReach o p entry mx n l a) : GoPool.Reach mx n a.pool := by
  induction h with
  | start tt => exact .init tt
  | step _ st ih =>
    cases st with
    | take h1 h2 => exact ih.step (.take _ _ _ _ _ h1 h2)
    | back h1 => exact ih.step (.handled _ _ _ _ _ h1)
    | pool h1 => exact ih.step h1
    | call => exact ih

theorem same_handled {s s' : GoPool.St} (st : GoPool.Step s s') (h : SameHandlers s s') : s'.handled = s.handled := by
  cases st with
  | take k w c j h1 h2 =>
    have := (h k w c j).1 (by simp [St.setGor])
    rw [h1] at this; cases this
  | _ => rfl

end Verif.PoolProg
