import Verif.SleepFair.Spec
import Verif.Sleep.Props
/-!
# Lemmas for C129
-/
namespace Verif.SleepFair
open Verif.Sleep

variable {σ : Nat → St} {s s' : St} {g h w n : Nat}

theorem Exec.reach (e : Exec σ) (n : Nat) : Reach (σ n) := by
  induction n with
  | zero => rw [e.start]; exact .init
  | succ n ih =>
    rcases e.next n with ⟨g, h⟩ | h
    · exact ih.step h
    · rw [h]; exact ih

theorem Exec.reach1 (e : Exec σ) (o : OnlyWaker w σ) (n : Nat) : Reach1 w (σ n) := by
  induction n with
  | zero => rw [e.start]; exact .init
  | succ n ih =>
    rcases e.next n with ⟨g, h⟩ | h
    · exact ih.step h (fun hg hl => hg (o g (n + 1) hl))
    · rw [h]; exact ih

/-- Nobody moves another goroutine. -/
theorem other_step (st : Step g s s') (hn : h ≠ g) : s'.pc h = s.pc h := by
  cases st <;> simp [at_pc, hn]

/-- A goroutine that can go on while it is at `p` takes a step from `p`. -/
theorem leave (e : Exec σ) (f : Fair σ) {p : Pc} (hp : p.free = false) (h0 : (σ n).pc g = p)
    (en : ∀ m, n ≤ m → (σ m).pc g = p → ∃ s', Step g (σ m) s') :
    ∃ m, n ≤ m ∧ (σ m).pc g = p ∧ Step g (σ m) (σ (m + 1)) := by
  by_contra hc
  have stay : ∀ d, (σ (n + d)).pc g = p := by
    intro d
    induction d with
    | zero => exact h0
    | succ d ih =>
      rcases e.next (n + d) with ⟨g', st⟩ | st
      · by_cases hg : g = g'
        · subst hg
          exact absurd ⟨n + d, by omega, ih, st⟩ hc
        · rw [show n + (d + 1) = n + d + 1 by omega, other_step st hg]; exact ih
      · rw [show n + (d + 1) = n + d + 1 by omega, st]; exact ih
  have stay' : ∀ m, n ≤ m → (σ m).pc g = p := fun m hm => by
    have := stay (m - n)
    rwa [show n + (m - n) = m by omega] at this
  obtain ⟨m, hm, hne⟩ := f g n (fun m hm => ⟨by rw [stay' m hm]; exact hp, en m hm (stay' m hm)⟩)
  exact hne (by rw [stay' m hm, stay' (m + 1) (by omega)])

theorem release_step (h0 : s.pc g = .release) (st : Step g s s') : s'.pc g = .sleepRet true := by
  cases st <;> simp_all [Pc.free, at_pc]

theorem cas_step {fv : Bool} (h0 : s.pc g = .tryCas fv) (st : Step g s s') : s'.pc g = .sleepRet false ∨ s'.pc g = .readCtx fv := by
  cases st <;> simp_all [Pc.free, at_pc]

theorem readCtx_step {fv : Bool} (h0 : s.pc g = .readCtx fv) (st : Step g s s') : s'.pc g = .wait s.ctx fv := by
  cases st <;> simp_all [Pc.free, at_pc]

/-- Leaving the select. -/
theorem wait_step {c : Nat} {fv : Bool} (h0 : s.pc g = .wait c fv) (st : Step g s s') : s'.pc g = .release := by
  cases st <;> simp_all [Pc.free, at_pc]

theorem load_step (h0 : s.pc g = .load) (st : Step g s s') : s'.pc g = .wakeRet false ∨ s'.pc g = .callCancel := by
  cases st <;> simp_all [Pc.free, at_pc]

theorem callCancel_step (h0 : s.pc g = .callCancel) (st : Step g s s') : s'.pc g = .writeCtx ∧ s'.canceled s.cancel = true := by
  cases st <;> simp_all [Pc.free, at_pc, St.at]

theorem writeCtx_step (h0 : s.pc g = .writeCtx) (st : Step g s s') : s'.pc g = .writeCancel s.next := by
  cases st <;> simp_all [Pc.free, at_pc]

theorem writeCancel_step {c : Nat} (h0 : s.pc g = .writeCancel c) (st : Step g s s') : s'.pc g = .wakeRet true := by
  cases st <;> simp_all [Pc.free, at_pc]

theorem leave_release (e : Exec σ) (f : Fair σ) (h0 : (σ n).pc g = .release) : SleepReturns σ g n := by
  obtain ⟨m, hm, hp, st⟩ := leave e f rfl h0 (fun m _ h => ⟨_, .release _ h⟩)
  exact ⟨m + 1, true, by omega, release_step hp st⟩

theorem SleepReturns.mono {m : Nat} (r : SleepReturns σ g m) (h : n ≤ m) : SleepReturns σ g n := by
  obtain ⟨k, b, hk, hb⟩ := r
  exact ⟨k, b, by omega, hb⟩

theorem leave_readCtx (e : Exec σ) (f : Fair σ) {fv : Bool} (h0 : (σ n).pc g = .readCtx fv) :
    ∃ m c, n ≤ m ∧ (σ m).pc g = .wait c fv := by
  obtain ⟨m, hm, hp, st⟩ := leave e f rfl h0 (fun m _ h => ⟨_, .readCtx _ fv h⟩)
  exact ⟨m + 1, (σ m).ctx, by omega, readCtx_step hp st⟩

/-- A call that has begun is refused or comes to the select. -/
theorem leave_begin (e : Exec σ) (f : Fair σ) {fv : Bool} (h0 : InSleep fv ((σ n).pc g)) :
    SleepReturns σ g n ∨ ∃ m c, n ≤ m ∧ (σ m).pc g = .wait c fv := by
  rcases h0 with h0 | h0 | ⟨c, h0⟩
  · obtain ⟨m, hm, hp, st⟩ := leave e f rfl h0 (fun m _ h => by
      cases hs : (σ m).slept
      · exact ⟨_, .casOk _ fv h hs⟩
      · exact ⟨_, .casFail _ fv h hs⟩)
    rcases cas_step hp st with h | h
    · exact .inl ⟨m + 1, false, by omega, h⟩
    · obtain ⟨m', c, hm', h'⟩ := leave_readCtx e f h
      exact .inr ⟨m', c, by omega, h'⟩
  · exact .inr (leave_readCtx e f h0)
  · exact .inr ⟨n, c, Nat.le_refl _, h0⟩

/-- A finite execution goes on as any execution that begins where it ends. -/
theorem prepend (r : Reach s) : ∀ τ : Nat → St, τ 0 = s → (∀ n, (∃ g, Step g (τ n) (τ (n + 1))) ∨ τ (n + 1) = τ n) →
    ∃ σ N, Exec σ ∧ ∀ n, σ (N + n) = τ n := by
  induction r with
  | init => intro τ h0 hn; exact ⟨τ, 0, ⟨h0, hn⟩, fun n => by simp⟩
  | @step s s' g _ st ih =>
    intro τ h0 hn
    obtain ⟨σ, N, e, hσ⟩ := ih (fun n => match n with | 0 => s | n + 1 => τ n) rfl (fun n => by
      cases n with
      | zero => left; exact ⟨g, by simp only [h0]; exact st⟩
      | succ n => exact hn n)
    refine ⟨σ, N + 1, e, fun n => ?_⟩
    have h1 : σ (N + (n + 1)) = τ n := hσ (n + 1)
    rw [← h1]
    congr 1
    omega

/-- The same with one waker. -/
theorem prepend1 (r : Reach1 w s) : ∀ τ : Nat → St, τ 0 = s → (∀ n, (∃ g, Step g (τ n) (τ (n + 1))) ∨ τ (n + 1) = τ n) →
    (∀ n g, (τ n).pc g = .load → g = w) → ∃ σ N, Exec σ ∧ OnlyWaker w σ ∧ ∀ n, σ (N + n) = τ n := by
  induction r with
  | init => intro τ h0 hn ho; exact ⟨τ, 0, ⟨h0, hn⟩, fun g n => ho n g, fun n => by simp⟩
  | @step s s' g r st _ ih =>
    intro τ h0 hn ho
    obtain ⟨σ, N, e, o, hσ⟩ := ih (fun n => match n with | 0 => s | n + 1 => τ n) rfl (fun n => by
      cases n with
      | zero => left; exact ⟨g, by simp only [h0]; exact st⟩
      | succ n => exact hn n) (fun n h hl => by
      cases n with
      | zero =>
        by_contra hne
        have hl : s.pc h = .load := hl
        have := (inv1_reach r).only h hne
        rw [hl] at this
        cases this
      | succ n => exact ho n h hl)
    refine ⟨σ, N + 1, e, o, fun n => ?_⟩
    have h1 : σ (N + (n + 1)) = τ n := hσ (n + 1)
    rw [← h1]
    congr 1
    omega

end Verif.SleepFair
