import Verif.SleepRace.Spec
import Verif.Sleep.Lemmas
/-!
# C113: a Sleeper can be shared by goroutines without data races

False: `Wakeup` assigns `ctx` and `cancel` while a call of `Sleep...` that has just set `slept` reads `ctx`, and two
calls of `Wakeup` assign both fields at once.
-/
namespace Verif.SleepRace
open Verif.Sleep

/-- C113 in full. It is false. -/
def C113_full : Prop := ∀ s, Reach s → ∀ g h v, ¬ Race s g h v

/-- Not in `Wakeup` after its first line. -/
theorem uses_waking {p : Pc} {v : Field} {a : Bool} (u : Uses p v a) : p.waking = true ∨ v = .ctx ∧ a = false ∧ ∃ f, p = .readCtx f := by
  cases u <;> simp [Pc.waking]

/-- **C113, one goroutine that calls `Wakeup`**: then the only races are between its assignment of `ctx` and a
call of `Sleep...` reading it; `cancel` has none, and neither have two calls of `Sleep...`. -/
theorem C113_one_waker {w : Nat} {s : St} (r : Reach1 w s) {g h : Nat} {v : Field} (c : Race s g h v) :
    v = .ctx ∧ s.pc w = .writeCtx ∧ ∃ x f, x ≠ w ∧ (x = g ∨ x = h) ∧ s.pc x = .readCtx f := by
  have i := (inv1_reach r).only
  obtain ⟨hne, a, b, u1, u2, hab⟩ := c
  rcases uses_waking u1 with h1 | ⟨rfl, rfl, f1, h1⟩ <;> rcases uses_waking u2 with h2 | ⟨e, rfl, f2, h2⟩
  · have e1 : g = w := by by_contra hx; rw [i g hx] at h1; cases h1
    have e2 : h = w := by by_contra hx; rw [i h hx] at h2; cases h2
    exact absurd (e1.trans e2.symm) hne
  · have e1 : g = w := by by_contra hx; rw [i g hx] at h1; cases h1
    subst e1 e
    refine ⟨rfl, ?_, h, f2, Ne.symm hne, .inr rfl, h2⟩
    generalize hp : s.pc g = p at u1 h1
    cases u1
    · cases h1
    · rfl
  · have e2 : h = w := by by_contra hx; rw [i h hx] at h2; cases h2
    subst e2
    refine ⟨rfl, ?_, g, f1, hne, .inl rfl, h1⟩
    generalize hp : s.pc h = p at u2 h2
    cases u2
    · cases h2
    · rfl
  · simp at hab

theorem polite_reach1 {w : Nat} {s : St} (r : Polite w s) : Reach1 w s := by
  induction r with
  | init => exact .init
  | step _ st h1 _ ih => exact .step ih st (fun hg hl => hg (h1 hl).1)

theorem polite_inv {w : Nat} {s : St} (r : Polite w s) : inWakeup (s.pc w) → ∀ h, h ≠ w → ¬ entering (s.pc h) := by
  induction r with
  | init => intro h; simp [init, inWakeup] at h
  | @step s s' g r st h1 h2 ih =>
    have i := (inv1_reach (polite_reach1 r)).only
    cases st <;> simp only [at_pc, St.at] at h1 h2 ⊢ <;> grind [inWakeup, entering, Pc.free]

/-- **C113, what does hold**: no races if one goroutine calls `Wakeup`, and `Wakeup` and the beginning of a sleep do
not overlap. Missing from the full claim: calls that do. -/
theorem C113_partial {w : Nat} {s : St} (r : Polite w s) (g h : Nat) (v : Field) : ¬ Race s g h v := by
  intro c
  obtain ⟨_, hw, x, f, hx, _, hp⟩ := C113_one_waker (polite_reach1 r) c
  exact polite_inv r (by rw [hw]; trivial) x hx (by rw [hp]; trivial)

/-- One goroutine sleeps, another calls `Wakeup`: a race on `ctx`. -/
theorem C113_sleep_wakeup : ∃ s, Reach1 1 s ∧ Race s 0 1 .ctx :=
  ⟨_, .step (.step (.step (.step (.step .init (.callSleep (g := 0) _ true rfl) (by simp [at_pc])) (.casOk (g := 0) _ true rfl rfl)
      (by simp [at_pc])) (.callWakeup (g := 1) _ rfl) (by simp)) (.loadYes (g := 1) _ rfl rfl) (by simp)) (.callCancel (g := 1) _ rfl) (by simp),
    by simp, false, true, .readCtx true, .writeCtx, .inr rfl⟩

/-- The same on the second sleep of a goroutine that was woken from its first: `Wakeup` has not yet returned. -/
theorem C113_sleep_again : ∃ s, Reach1 1 s ∧ Race s 0 1 .ctx ∧ s.canceled 0 = true := by
  have r : Reach1 1 init := .init
  have r := r.step (.callSleep (g := 0) _ true rfl) (by simp [at_pc])
  have r := r.step (.casOk (g := 0) _ true rfl rfl) (by simp [at_pc])
  have r := r.step (.readCtx (g := 0) _ true rfl) (by simp [at_pc])
  have r := r.step (.callWakeup (g := 1) _ rfl) (by simp)
  have r := r.step (.loadYes (g := 1) _ rfl rfl) (by simp)
  have r := r.step (.callCancel (g := 1) _ rfl) (by simp)
  have r := r.step (.done (g := 0) _ 0 true rfl rfl) (by simp [at_pc])
  have r := r.step (.release (g := 0) _ rfl) (by simp [at_pc])
  have r := r.step (.callSleep (g := 0) _ true rfl) (by simp [at_pc])
  have r := r.step (.casOk (g := 0) _ true rfl rfl) (by simp [at_pc])
  exact ⟨_, r, ⟨by simp, false, true, .readCtx true, .writeCtx, .inr rfl⟩, rfl⟩

/-- Two calls of `Wakeup`: a race on `cancel`. -/
theorem C113_two_wakers : ∃ s, Reach s ∧ Race s 1 2 .cancel := by
  have r := Reach.step (.step (.step .init (.callSleep (g := 0) _ true rfl)) (.casOk (g := 0) _ true rfl rfl)) (.readCtx (g := 0) _ true rfl)
  have r := Reach.step (.step (.step (.step r (.callWakeup (g := 1) _ rfl)) (.callWakeup (g := 2) _ rfl))
    (.loadYes (g := 1) _ rfl rfl)) (.loadYes (g := 2) _ rfl rfl)
  have r := Reach.step (.step r (.callCancel (g := 1) _ rfl)) (.writeCtx (g := 1) _ rfl)
  exact ⟨_, r, by simp, true, false, .writeCancel 1, .callCancel, .inl rfl⟩

/-- **C113 is false.** -/
theorem C113_refuted : ¬ C113_full := by
  intro hf
  obtain ⟨s, r, c⟩ := C113_two_wakers
  exact hf s r _ _ _ c

/-- A polite execution in which a sleeper is woken: goroutine 0 waits on a cancelled context, `Wakeup` is about to assign. -/
example : ∃ s, Polite 1 s ∧ s.pc 1 = .writeCtx ∧ s.pc 0 = .wait 0 true ∧ s.canceled 0 = true := by
  have r : Polite 1 init := .init
  have r := r.step (.callSleep (g := 0) _ true rfl) (by simp [at_pc]) (by simp [init, inWakeup])
  have r := r.step (.casOk (g := 0) _ true rfl rfl) (by simp [at_pc]) (by simp [at_pc])
  have r := r.step (.readCtx (g := 0) _ true rfl) (by simp [at_pc]) (by simp [at_pc])
  have r := r.step (.callWakeup (g := 1) _ rfl) (by
    intro _
    refine ⟨rfl, fun h => ?_⟩
    by_cases e : h = 0 <;> simp [St.at, init, entering, e]) (by simp [at_pc])
  have r := r.step (.loadYes (g := 1) _ rfl rfl) (by simp [at_pc]) (by simp [at_pc])
  have r := r.step (.callCancel (g := 1) _ rfl) (by simp [at_pc]) (by simp [at_pc])
  exact ⟨_, r, rfl, rfl, rfl⟩

end Verif.SleepRace
