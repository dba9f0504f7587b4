import Verif.PoolProg.Store
import Verif.PoolDrain.Props
/-!
# Fair executions that have come to an end
-/
namespace Verif.PoolProg
open Verif.GoPool Verif.PoolFair Verif.PoolDrain

/-- Nothing is left to do for the pool. -/
structure Ended (s : GoPool.St) : Prop where
  gor : ∀ k, s.gor k = .dead ∨ s.gor k = .unborn
  job : ∀ j, s.job j = .accepted ∨ s.job j = .rejected ∨ s.job j = .new
  gc : s.gc = .dead
  stop : ∀ k, s.stop k = .returned ∨ s.stop k = .new

theorem Ended.still {s s' : GoPool.St} (e : Ended s) (st : GoPool.Step s s') : s'.gor = s.gor := by
  have noch : ∀ i, s.job i ≠ .called := fun i h => by rcases e.job i with g | g | g <;> rw [g] at h <;> cases h
  have no : ∀ k q, s.gor k = q → q ≠ .dead → q ≠ .unborn → False := fun k q h1 h2 h3 => by
    rcases e.gor k with g | g
    · exact h2 (h1.symm.trans g)
    · exact h3 (h1.symm.trans g)
  cases st with
  | runPooled i' w' p1 p2 a1 a2 a3 a4 a5 => exact absurd a1 (noch _)
  | runFresh i' a1 a2 a3 a4 => exact absurd a1 (noch _)
  | «begin» k' w' a1 => exact (no _ _ a1 (by simp) (by simp)).elim
  | take k' w' c' j' a1 a2 => exact (no _ _ a1 (by simp) (by simp)).elim
  | rangeEnd k' w' c' a1 a2 a3 => exact (no _ _ a1 (by simp) (by simp)).elim
  | handled k' w' c' j' a1 => exact (no _ _ a1 (by simp) (by simp)).elim
  | stamp k' w' c' t a1 => exact (no _ _ a1 (by simp) (by simp)).elim
  | freeDraining k' w' c' a1 a2 => exact (no _ _ a1 (by simp) (by simp)).elim
  | freeBack k' w' c' a1 a2 => exact (no _ _ a1 (by simp) (by simp)).elim
  | exit k' a1 => exact (no _ _ a1 (by simp) (by simp)).elim
  | _ => rfl

/-- An execution that has come to an end is fair. -/
theorem Ended.fair {s : GoPool.St} (e : Ended s) {σ : Nat → GoPool.St} {N : Nat} (hN : ∀ m, N ≤ m → σ m = s) : Fair σ := by
  refine ⟨fun j n hn => ?_, fun k n hn => ?_, fun n hn => ?_, fun k n hn => ?_⟩
  · obtain ⟨g1, s', st, g⟩ := hn (max n N) (Nat.le_max_left ..)
    rw [hN _ (Nat.le_max_right ..)] at g1 g st
    rcases job_step (j := j) st with h | ⟨h, _⟩ | ⟨h, _⟩ | ⟨⟨w, h⟩, _⟩
    · exact absurd h g
    · exact absurd h g1
    all_goals
      rcases e.job j with g | g | g <;> rw [h] at g <;> cases g
  · obtain ⟨_, s', st, g⟩ := hn (max n N) (Nat.le_max_left ..)
    rw [hN _ (Nat.le_max_right ..)] at g st
    exact absurd (congrFun (e.still st) k) g
  · obtain ⟨_, s', st, g⟩ := hn (max n N) (Nat.le_max_left ..)
    rw [hN _ (Nat.le_max_right ..)] at g st
    exact absurd ((gc_dead st e.gc).trans e.gc.symm) g
  · obtain ⟨m, hm, g1, s', st, g⟩ := hn (max n N) (Nat.le_max_left ..)
    rw [hN _ (by omega)] at g1 g st
    have g0 : s.stop k = .returned := (e.stop k).resolve_right g1
    rcases stop_step (k := k) st with g' | g' | ⟨g', _⟩ | ⟨g', _⟩
    · exact absurd g' g
    all_goals rw [g0] at g'; cases g'

open Verif.Conc.RW in
/-- What is reached is reached in an execution that goes no further. -/
theorem PReach.exec {σ A C R P : Type} {g : Guarded σ A C R} {p : Client P C R} {entry : Nat → P} {mx : Int} {n : Nat} {l : Nat → P}
    {x : Sys σ A C R P} (h : PReach g p entry mx n l x) : ∃ (τ : Nat → Sys σ A C R P) (N : Nat),
      (∃ tt, τ 0 = ⟨GoPool.init mx n tt, ⟨Verif.Conc.RW.start g, l⟩⟩) ∧ (∀ a, PStep g p entry (τ a) (τ (a + 1)) ∨ τ (a + 1) = τ a) ∧ ∀ m, N ≤ m → τ m = x := by
  induction h with
  | start tt => exact ⟨fun _ => _, 0, ⟨tt, rfl⟩, fun _ => .inr rfl, fun _ _ => rfl⟩
  | @step x x' _ st ih =>
    obtain ⟨τ, N, e, hs, h⟩ := ih
    refine ⟨fun n => if n ≤ N then τ n else x', N + 1, by simpa using e, fun n => ?_, fun m hm => if_neg (by omega)⟩
    by_cases h1 : n + 1 ≤ N
    · simpa [show n ≤ N by omega, h1] using hs n
    · by_cases h2 : n ≤ N
      · have : n = N := by omega
        subst this
        left
        simpa [h n (Nat.le_refl _)] using st
      · right; simp [h1, h2]

end Verif.PoolProg
