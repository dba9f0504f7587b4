import Verif.PoolFair.Spec
import Verif.GoPool.Props
/-!
# Lemmas for C125
-/
namespace Verif.PoolFair
open Verif.GoPool

variable {s s' : St} {mx : Int} {p : Nat} {tok : Nat → Loc} {cw rdr jc : Nat → Nat} {j k w c : Nat}

theorem Exec.reach {σ : Nat → St} (e : Exec mx p σ) (n : Nat) : Reach mx p (σ n) := by
  induction n with
  | zero => obtain ⟨t, h⟩ := e.start; rw [h]; exact .init t
  | succ n ih =>
    rcases e.next n with h | h
    · exact ih.step h
    · rw [h]; exact ih

/-- The goroutine waits on the channel that the job is in. -/
def Waits (s : St) (j k w c : Nat) : Prop := s.gor k = .recv w (some c) ∧ s.buf c = some j

/-- The goroutine is about to do so. -/
def Begins (s : St) (j k w c : Nat) : Prop := s.gor k = .start w ∧ s.ch w = some c ∧ s.buf c = some j

/-- A job stays in its channel until it is handled. -/
theorem buf_step (st : Step s s') (hb : s.buf c = some j) (h0 : s'.handled j = 0) : s'.buf c = some j := by
  cases st with
  | send i w' c' a1 a2 a3 a4 =>
    have : c ≠ c' := by rintro rfl; rw [hb] at a4; cases a4
    simpa [St.setJob, this] using hb
  | take k' w' c' j' a1 a2 =>
    by_cases e : c = c'
    · subst e
      rw [hb] at a2; cases a2
      simp [St.setGor] at h0
    · simpa [St.setGor, e] using hb
  | _ => exact hb

theorem gor_step (i : Inv s tok cw rdr jc) (st : Step s s') (hb : s.buf c = some j) (h0 : s'.handled j = 0)
    (hk : s.gor k = .recv w (some c)) : s'.gor k = .recv w (some c) := by
  have other : ∀ {k' : Nat} {q q' : GorPc}, s.gor k' = q → q ≠ .recv w (some c) →
      (if k = k' then q' else s.gor k) = .recv w (some c) := fun {k' q q'} h1 h2 => by
    have : k ≠ k' := by rintro rfl; exact h2 (h1.symm.trans hk)
    rw [if_neg this]; exact hk
  cases st with
  | runPooled i' w' p1 p2 a1 a2 a3 a4 a5 => exact other (i.gfresh _ (Nat.le_refl _)) (by simp)
  | runFresh i' a1 a2 a3 a4 => exact other (i.gfresh _ (Nat.le_refl _)) (by simp)
  | «begin» k' w' a1 => exact other a1 (by simp)
  | take k' w' c' j' a1 a2 =>
    by_cases e : k = k'
    · subst e
      rw [hk] at a1; cases a1
      rw [hb] at a2; cases a2
      simp [St.setGor] at h0
    · simp only [St.setGor, if_neg e]; exact hk
  | rangeEnd k' w' c' a1 a2 a3 =>
    by_cases e : k = k'
    · subst e
      rw [hk] at a1; cases a1
      rw [hb] at a2; cases a2
    · simp only [St.setGor, if_neg e]; exact hk
  | handled k' w' c' j' a1 => exact other a1 (by simp)
  | stamp k' w' c' t a1 => exact other a1 (by simp)
  | freeDraining k' w' c' a1 a2 => exact other a1 (by simp)
  | freeBack k' w' c' a1 a2 => exact other a1 (by simp)
  | exit k' a1 => exact other a1 (by simp)
  | _ => exact hk

theorem waits_step (i : Inv s tok cw rdr jc) (st : Step s s') (h0 : s'.handled j = 0) (h : Waits s j k w c) : Waits s' j k w c :=
  ⟨gor_step i st h.2 h0 h.1, buf_step st h.2 h0⟩

theorem begins_step (i : Inv s tok cw rdr jc) (st : Step s s') (h0 : s'.handled j = 0) (h : Begins s j k w c) :
    Begins s' j k w c ∨ Waits s' j k w c := by
  obtain ⟨hk, hc, hb⟩ := h
  have hb' := buf_step st hb h0
  have ht : tok w = .chan c j := by have := i.chan2 c j hb; rwa [(i.cw1 w c hc).1] at this
  have other : ∀ {k' : Nat} {q q' : GorPc}, s.gor k' = q → q ≠ .start w →
      (if k = k' then q' else s.gor k) = .start w := fun {k' q q'} h1 h2 => by
    have : k ≠ k' := by rintro rfl; exact h2 (h1.symm.trans hk)
    rw [if_neg this]; exact hk
  cases st with
  | runPooled i' w' p1 p2 a1 a2 a3 a4 a5 =>
    refine .inl ⟨other (i.gfresh _ (Nat.le_refl _)) (by simp), ?_, hb'⟩
    have : w ≠ w' := by
      rintro rfl
      have := i.pool1 w (by rw [a5]; simp)
      rw [ht] at this; cases this
    simp [St.setJob, St.spawn, this, hc]
  | runFresh i' a1 a2 a3 a4 =>
    refine .inl ⟨other (i.gfresh _ (Nat.le_refl _)) (by simp), ?_, hb'⟩
    have : w ≠ s.nextW := by
      intro e
      have := i.fresh w (by omega)
      rw [ht] at this; cases this
    simp [St.setJob, St.spawn, this, hc]
  | «begin» k' w' a1 =>
    by_cases e : k = k'
    · subst e
      rw [hk] at a1; cases a1
      exact .inr ⟨by simp [St.setGor, hc], hb'⟩
    · exact .inl ⟨by simp only [St.setGor, if_neg e]; exact hk, hc, hb'⟩
  | take k' w' c' j' a1 a2 => exact .inl ⟨other a1 (by simp), hc, hb'⟩
  | rangeEnd k' w' c' a1 a2 a3 => exact .inl ⟨other a1 (by simp), hc, hb'⟩
  | handled k' w' c' j' a1 => exact .inl ⟨other a1 (by simp), hc, hb'⟩
  | stamp k' w' c' t a1 => exact .inl ⟨other a1 (by simp), hc, hb'⟩
  | freeDraining k' w' c' a1 a2 => exact .inl ⟨other a1 (by simp), hc, hb'⟩
  | freeBack k' w' c' a1 a2 => exact .inl ⟨other a1 (by simp), hc, hb'⟩
  | exit k' a1 => exact .inl ⟨other a1 (by simp), hc, hb'⟩
  | clearOne w' ws a1 =>
    have : w ≠ w' := by
      rintro rfl
      have := (i.gc1 w).1 (by rw [a1]; simp [GcPc.held])
      rw [ht] at this; cases this
    exact .inl ⟨hk, by simp [this, hc], hb'⟩
  | _ => exact .inl ⟨hk, hc, hb'⟩

theorem handled_mono (st : Step s s') : s.handled j ≤ s'.handled j := by
  cases st with
  | take k' w' c' j' a1 a2 => simp only [St.setGor]; split <;> omega
  | _ => exact Nat.le_refl _

/-- What becomes of a call of `Run`. -/
theorem job_step (st : Step s s') : s'.job j = s.job j ∨ s.job j = .new ∧ s'.job j = .called ∨
    s.job j = .called ∧ (s'.job j = .rejected ∨ ∃ w, s'.job j = .sending w) ∨ (∃ w, s.job j = .sending w) ∧ s'.job j = .accepted := by
  have key : ∀ {i : Nat} {q : JobPc} (P : Prop), (i = j → P) → (if j = i then q else s.job j) = s.job j ∨ P := fun {i q} P h => by
    by_cases e : j = i
    · exact .inr (h e.symm)
    · exact .inl (if_neg e)
  cases st with
  | call i a => exact key _ (by rintro rfl; exact .inl ⟨a, by simp [St.setJob]⟩)
  | runDraining i a b => exact key _ (by rintro rfl; exact .inr (.inl ⟨a, .inl (by simp [St.setJob])⟩))
  | runReuse i ws w a b c => exact key _ (by rintro rfl; exact .inr (.inl ⟨a, .inr ⟨w, by simp [St.setJob]⟩⟩))
  | runPooled i w p1 p2 a b c d e => exact key _ (by rintro rfl; exact .inr (.inl ⟨a, .inr ⟨w, by simp [St.setJob]⟩⟩))
  | runFresh i a b c d => exact key _ (by rintro rfl; exact .inr (.inl ⟨a, .inr ⟨s.nextW, by simp [St.setJob]⟩⟩))
  | runFull i a b c d => exact key _ (by rintro rfl; exact .inr (.inl ⟨a, .inl (by simp [St.setJob])⟩))
  | send i w c a b d e => exact key _ (by rintro rfl; exact .inr (.inr ⟨⟨w, a⟩, by simp [St.setJob]⟩))
  | _ => exact .inl rfl

theorem called_enabled (h : s.job j = .called) : Enabled (fun s => s.job j) s := by
  by_cases hm : s.maxWorkers = -1
  · exact ⟨_, .runDraining s j h hm, by simp [St.setJob, h]⟩
  rcases List.eq_nil_or_concat s.dobby with hd | ⟨ws, w, hd⟩
  · by_cases hw : s.workers < s.maxWorkers
    · exact ⟨_, .runFresh s j h hm hd hw, by simp [St.setJob, h]⟩
    · exact ⟨_, .runFull s j h hm hd hw, by simp [St.setJob, h]⟩
  · exact ⟨_, .runReuse s j ws w h hm (by simpa using hd), by simp [St.setJob, h]⟩

end Verif.PoolFair
