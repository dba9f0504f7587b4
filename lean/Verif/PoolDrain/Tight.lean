import Verif.PoolDrain.Few
import Verif.PoolFair.Props
/-!
# A pool that leaves every preheated worker behind
-/
namespace Verif.PoolDrain
open Verif.GoPool Verif.PoolFair

variable {mx : Int} {p i : Nat} {s : St}

theorem cutLoop_all (ts : List Int) (now : Int) (h : ∀ t ∈ ts, t < now) (l r : Nat) (hl : l ≤ r) (hr : r ≤ ts.length) :
    cutLoop ts now l r = some r := by
  induction hn : r - l using Nat.strongRecOn generalizing l r with
  | _ n ih =>
    rw [cutLoop]
    split
    · have hm : (l + r) / 2 < ts.length := by omega
      rw [List.getElem?_eq_getElem hm]
      dsimp only
      rw [if_pos (h _ (List.getElem_mem hm))]
      exact ih (r - ((l + r) / 2 + 1)) (by omega) _ _ (by omega) hr rfl
    · rw [show l = r by omega]

/-- The first `i` workers have been collected, no goroutine has run. -/
structure Mid (mx : Int) (p i : Nat) (s : St) : Prop where
  dobby : s.dobby = []
  gor : ∀ k, s.gor k = if k < p then .start k else .unborn
  ch : ∀ w, s.ch w = if w < p ∧ i ≤ w then some w else none
  closed : ∀ c, i ≤ c → s.closed c = false
  gc : s.gc = .closing (List.range' i (p - i))
  workers : s.workers = p
  max : s.maxWorkers = mx
  job : ∀ j, s.job j = .new
  stop : ∀ k, s.stop k = .new
  set : s.stopSet = true

/-- All have been collected, `i` goroutines have run. -/
structure Late (mx : Int) (p i : Nat) (s : St) : Prop where
  dobby : s.dobby = []
  gor : ∀ k, s.gor k = if k < p then (if k < i then .recv k none else .start k) else .unborn
  ch : ∀ w, s.ch w = none
  gc : s.gc = .idle
  workers : s.workers = p
  max : s.maxWorkers = mx
  job : ∀ j, s.job j = .new
  stop : ∀ k, s.stop k = .new
  set : s.stopSet = true

theorem mid_reach (hm : 0 < mx) (i : Nat) (hi : i ≤ p) : ∃ s, Reach mx p s ∧ Mid mx p i s := by
  induction i with
  | zero =>
    have r0 : Reach mx p (init mx p (fun _ => 0)) := .init _
    have r1 := r0.step (.tick _ 1 p rfl (by simp only [init]; omega) (by
      by_cases hp : p = 0
      · subst hp; simp [init, cut]
      · have := cutLoop_all ((List.range p).map fun _ => (0 : Int)) 1 (by simp) 0 p (Nat.zero_le _) (by simp)
        simp only [init, cut, List.length_map, List.length_range]
        rw [if_pos (by omega), this]))
    exact ⟨_, r1, by simp [init], fun _ => rfl, by simp [init], fun _ _ => rfl, by
      simp [init, List.range_eq_range'], rfl, rfl, fun _ => rfl, fun _ => rfl, rfl⟩
  | succ i ih =>
    obtain ⟨s, r, m⟩ := ih (by omega)
    have hgc : s.gc = .closing (i :: List.range' (i + 1) (p - (i + 1))) := by
      rw [m.gc, show p - i = p - (i + 1) + 1 by omega, List.range'_succ]
    have r1 := r.step (.closeOne s i _ i hgc (by rw [m.ch, if_pos (by omega)]) (m.closed i (Nat.le_refl _)))
    have r2 := r1.step (.clearOne _ i _ rfl)
    have r3 := r2.step (.putOne _ i _ rfl)
    refine ⟨_, r3, m.dobby, m.gor, fun w => ?_, fun c hc => ?_, rfl, m.workers, m.max, m.job, m.stop, m.set⟩
    · dsimp only
      by_cases hw : w = i
      · rw [if_pos hw, if_neg (by omega)]
      · rw [if_neg hw, m.ch]
        by_cases h : w < p ∧ i ≤ w
        · rw [if_pos h, if_pos (by omega)]
        · rw [if_neg h, if_neg (by omega)]
    · dsimp only
      rw [if_neg (by omega)]
      exact m.closed c (by omega)

theorem late_reach (hm : 0 < mx) (i : Nat) (hi : i ≤ p) : ∃ s, Reach mx p s ∧ Late mx p i s := by
  induction i with
  | zero =>
    obtain ⟨s, r, m⟩ := mid_reach hm p (Nat.le_refl _)
    have r1 := r.step (.collected s (by rw [m.gc, Nat.sub_self]; rfl))
    exact ⟨_, r1, m.dobby, fun k => by simpa using m.gor k, fun w => by
      show s.ch w = none
      rw [m.ch, if_neg (by omega)], rfl, m.workers, m.max, m.job, m.stop, m.set⟩
  | succ i ih =>
    obtain ⟨s, r, m⟩ := ih (by omega)
    have r1 := r.step (.begin s i i (by rw [m.gor, if_pos (by omega), if_neg (by omega)]))
    refine ⟨_, r1, m.dobby, fun k => ?_, m.ch, m.gc, m.workers, m.max, m.job, m.stop, m.set⟩
    simp only [St.setGor]
    by_cases hk : k = i
    · subst hk
      rw [if_pos rfl, if_pos (by omega), if_pos (by omega), m.ch]
    · rw [if_neg hk, m.gor]
      by_cases h : k < i
      · rw [if_pos h, if_pos (show k < i + 1 by omega)]
      · rw [if_neg h, if_neg (show ¬ k < i + 1 by omega)]

/-- Then `Stop` is called and returns. -/
structure Over (p : Nat) (s : St) : Prop where
  gor : ∀ k, s.gor k = if k < p then .recv k none else .unborn
  gc : s.gc = .dead
  workers : s.workers = p
  job : ∀ j, s.job j = .new
  stop : ∀ k, s.stop k = if k = 0 then .returned else .new

theorem over_reach (hm : 0 < mx) (p : Nat) : ∃ s, Reach mx p s ∧ Over p s := by
  obtain ⟨s, r, m⟩ := late_reach hm p (Nat.le_refl p)
  have r1 := r.step (.stopCall s 0 (m.stop 0) m.set)
  have r2 := r1.step (.stopSignal _ 0 (by simp [St.setStop]) m.set m.gc)
  have r3 := r2.step (.stopAll _ s.closed rfl (by simp [St.setStop, m.dobby, closeAll]))
  have r4 := r3.step (.stopClear _ 0 (by simp [St.setStop]))
  refine ⟨_, r4, fun k => ?_, rfl, m.workers, m.job, fun k => ?_⟩
  · show s.gor k = _
    rw [m.gor]
    by_cases hk : k < p <;> simp [hk]
  · by_cases e : k = 0 <;> simp [St.setStop, e, m.stop]

theorem over_gor {s' : St} (o : Over p s) (st : Step s s') : s'.gor = s.gor := by
  have no : ∀ k w, s.gor k ≠ .start w ∧ (∀ c, s.gor k ≠ .recv w (some c)) ∧ (∀ c j, s.gor k ≠ .handling w c j) ∧
      (∀ c, s.gor k ≠ .stamp w c) ∧ (∀ c, s.gor k ≠ .free w c) ∧ s.gor k ≠ .exiting := fun k w => by
    rw [o.gor]; split <;> simp
  cases st with
  | runPooled i' w' p1 p2 a1 a2 a3 a4 a5 => rw [o.job] at a1; cases a1
  | runFresh i' a1 a2 a3 a4 => rw [o.job] at a1; cases a1
  | «begin» k' w' a1 => exact absurd a1 (no k' w').1
  | take k' w' c' j' a1 a2 => exact absurd a1 ((no k' w').2.1 c')
  | rangeEnd k' w' c' a1 a2 a3 => exact absurd a1 ((no k' w').2.1 c')
  | handled k' w' c' j' a1 => exact absurd a1 ((no k' w').2.2.1 c' j')
  | stamp k' w' c' t a1 => exact absurd a1 ((no k' w').2.2.2.1 c')
  | freeDraining k' w' c' a1 a2 => exact absurd a1 ((no k' w').2.2.2.2.1 c')
  | freeBack k' w' c' a1 a2 => exact absurd a1 ((no k' w').2.2.2.2.1 c')
  | exit k' a1 => exact absurd a1 (no k' 0).2.2.2.2.2
  | _ => rfl

theorem over_exec (hm : 0 < mx) (p : Nat) : ∃ σ N s, Exec mx p σ ∧ Fair σ ∧ Over p s ∧ ∀ m, N ≤ m → σ m = s := by
  obtain ⟨s, r, o⟩ := over_reach hm p
  obtain ⟨σ, N, ex, hN⟩ := exec_of_reach r
  refine ⟨σ, N, s, ex, ⟨fun j n hn => ?_, fun k n hn => ?_, fun n hn => ?_, fun k n hn => ?_⟩, o, hN⟩
  · obtain ⟨g1, _⟩ := hn (max n N) (Nat.le_max_left ..)
    rw [hN _ (Nat.le_max_right ..)] at g1
    exact absurd (o.job j) g1
  · obtain ⟨_, s'', st, g⟩ := hn (max n N) (Nat.le_max_left ..)
    rw [hN _ (Nat.le_max_right ..)] at g st
    exact absurd (congrFun (over_gor o st) k) g
  · obtain ⟨_, s'', st, g⟩ := hn (max n N) (Nat.le_max_left ..)
    rw [hN _ (Nat.le_max_right ..)] at g st
    exact absurd ((gc_dead st o.gc).trans o.gc.symm) g
  · obtain ⟨m, hm, g1, s'', st, g⟩ := hn (max n N) (Nat.le_max_left ..)
    rw [hN _ (by omega)] at g1 g st
    have k0 : k = 0 := by
      by_contra e
      exact g1 (by rw [o.stop, if_neg e])
    have g0 : s.stop k = .returned := by rw [o.stop, if_pos k0]
    rcases stop_step (k := k) st with g' | g' | ⟨g', _⟩ | ⟨g', _⟩
    · exact absurd g' g
    all_goals rw [g0] at g'; cases g'

end Verif.PoolDrain
