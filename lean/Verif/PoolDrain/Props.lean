import Verif.PoolDrain.Tight
/-!
# C126: a stopped pool drains
-/
namespace Verif.PoolDrain
open Verif.GoPool Verif.PoolFair

variable {mx : Int} {p : Nat} {σ : Nat → St} {k n : Nat}

/-- The full statement of C126: a `Stop` call that got through leaves no worker behind. -/
def C126_full : Prop := ∀ (mx : Int) (p : Nat) (σ : Nat → St) (k n : Nat), 0 < mx → Exec mx p σ → Fair σ →
  (σ n).stop k = .returned → ∃ N, n ≤ N ∧ ∀ m, N ≤ m → Drained (σ m)

/-- **C126** Whatever was preheated, in the end every worker goroutine has ended or waits for good in line 33, the waiting ones are the
ones `Workers` counts, and there are no more of them than preheated workers. -/
theorem C126_left (hm : 0 < mx) (e : Exec mx p σ) (hf : Fair σ) (h : (σ n).stop k = .returned) :
    ∃ N, n ≤ N ∧ (∀ k, (σ N).gor k = .unborn ∨ (σ N).gor k = .dead ∨ ∃ w o, (σ N).gor k = .recv w o) ∧
      ∃ l : List Nat, l.Nodup ∧ l.length ≤ p ∧ (∀ k, k ∈ l ↔ ∃ w o, (σ N).gor k = .recv w o) ∧
        ∀ m, N ≤ m → (σ m).gor = (σ N).gor ∧ (σ m).workers = l.length := by
  obtain ⟨a, h1, h2⟩ := stopped hm e hf (.inr h)
  obtain ⟨N, h3, h4⟩ := rest hm e h2
  have hx : ∀ m, N ≤ m → (σ m).maxWorkers = -1 := fun m h => stays_stopped hm e h2 m (by omega)
  obtain ⟨M, h5, h6⟩ := rest_few hm e hf hx h4
  have all : ∀ k, (σ M).gor k = .unborn ∨ (σ M).gor k = .dead ∨ ∃ w o, (σ M).gor k = .recv w o := fun k => by
    rw [h4 M h5]
    cases hk : (σ N).gor k with
    | unborn => exact .inl rfl
    | dead => exact .inr (.inl rfl)
    | _ =>
      right; right
      rw [← hk]
      exact rest_recv hm e hf hx h4 (by rw [hk]; rfl)
  obtain ⟨l, c⟩ := cnt_reach hm (e.reach M)
  have few := h6 M (Nat.le_refl _)
  rw [c.len] at few
  refine ⟨M, by omega, all, l, c.nodup, by omega, fun k => ?_, fun m h7 => ⟨by rw [h4 m (by omega), h4 M h5], ?_⟩⟩
  · rw [c.mem]
    rcases all k with g | g | ⟨w, o, g⟩ <;> simp [g, GorPc.live]
  · obtain ⟨l', c'⟩ := cnt_reach hm (e.reach m)
    rw [c'.len, List.Perm.length_eq ((List.perm_ext_iff_of_nodup c'.nodup c.nodup).2 fun k => by
      rw [c'.mem, c.mem, h4 m (by omega), h4 M h5])]

/-- **C126** (partial) Without preheated workers none is left. Missing: preheated workers, for which it is false. -/
theorem C126_partial (hm : 0 < mx) (e : Exec mx 0 σ) (hf : Fair σ) (h : (σ n).stop k = .returned) :
    ∃ N, n ≤ N ∧ ∀ m, N ≤ m → Drained (σ m) := by
  obtain ⟨N, h1, h2, l, _, h3, h4, h5⟩ := C126_left hm e hf h
  have hl : l = [] := List.eq_nil_of_length_eq_zero (by omega)
  subst hl
  refine ⟨N, h1, fun m hm' => ⟨(h5 m hm').2, fun k => ?_⟩⟩
  rw [(h5 m hm').1]
  rcases h2 k with g | g | g
  · exact .inl g
  · exact .inr g
  · exact absurd ((h4 k).2 g) (by simp)

/-- **C126** The only `Stop` call returns, whatever the collector is doing. -/
theorem C126_stop_returns (hm : 0 < mx) (e : Exec mx p σ) (hf : Fair σ) (h : (σ n).stop k ≠ .new)
    (ho : ∀ m k', k' ≠ k → (σ m).stop k' = .new) : ∃ m, n ≤ m ∧ (σ m).stop k = .returned := by
  -- a call that got through returns
  have last : ∀ a, n ≤ a → (σ a).stop k = .sent → ∃ m, n ≤ m ∧ (σ m).stop k = .returned := fun a ha hs => by
    by_contra hc
    have stay : ∀ m, a ≤ m → (σ m).stop k = .sent := keeps e (P := fun s => s.stop k = .sent) (fun m h1 h2 st => by
      rcases stop_step (k := k) st with g | g | ⟨g, _⟩ | ⟨_, g⟩
      · exact g.trans h2
      · rw [h2] at g; cases g
      · rw [h2] at g; cases g
      · exact absurd ⟨m + 1, by omega, g⟩ hc) hs
    obtain ⟨m, h1, h2⟩ := hf.stops k a fun m h1 => ⟨m, Nat.le_refl _, by simp [stay m h1], _, .stopClear _ k (stay m h1),
      by simp [St.setStop, stay m h1]⟩
    exact h2 ((stay (m + 1) (by omega)).trans (stay m h1).symm)
  cases hk : (σ n).stop k with
  | new => exact absurd hk h
  | sent => exact last n (Nat.le_refl _) hk
  | returned => exact ⟨n, Nat.le_refl _, hk⟩
  | sending =>
    by_contra hc
    have stay : ∀ m, n ≤ m → (σ m).stop k = .sending := keeps e (P := fun s => s.stop k = .sending) (fun m h1 h2 st => by
      rcases stop_step (k := k) st with g | g | ⟨_, g⟩ | ⟨g, _⟩
      · exact g.trans h2
      · rw [h2] at g; cases g
      · exact absurd (last (m + 1) (by omega) g) hc
      · rw [h2] at g; cases g) hk
    have none : ∀ m, n ≤ m → ¬ ∃ k', (σ m).stop k' = .sent ∨ (σ m).stop k' = .returned := by
      rintro m h1 ⟨k', g⟩
      by_cases e : k' = k
      · rw [e, stay m h1] at g; rcases g with g | g <;> cases g
      · rw [ho m k' e] at g; rcases g with g | g <;> cases g
    obtain ⟨m, h1, h2⟩ := hf.stops k n fun a ha => by
      obtain ⟨m, h1, h2⟩ := idles (n := a) hm e hf fun m h1 =>
        ⟨fun g => none m (by omega) ((sto_reach hm (e.reach m)).gc (.inl g)), fun g => none m (by omega) ((sto_reach hm (e.reach m)).gc (.inr g))⟩
      have hset : (σ m).stopSet = true := by
        by_contra g
        exact none m (by omega) ((sto_reach hm (e.reach m)).set (by simpa using g))
      exact ⟨m, h1, by simp [stay m (by omega)], _, .stopSignal _ k (stay m (by omega)) hset h2, by simp [St.setStop, stay m (by omega)]⟩
    exact h2 ((stay (m + 1) (by omega)).trans (stay m h1).symm)

/-- **C126** The bound is met: the collector may get to all preheated workers before their goroutines run, and then all of these stay. -/
theorem C126_all_left (hm : 0 < mx) (p : Nat) : ∃ σ n, Exec mx p σ ∧ Fair σ ∧ (σ n).stop 0 = .returned ∧
    ∀ m, n ≤ m → (σ m).workers = p ∧ ∀ k, k < p → ∃ w o, (σ m).gor k = .recv w o := by
  obtain ⟨σ, N, s, ex, fair, o, hN⟩ := over_exec hm p
  refine ⟨σ, N, ex, fair, ?_, fun m h => ?_⟩
  · rw [hN N (Nat.le_refl _), o.stop]; rfl
  · rw [hN m h]
    exact ⟨o.workers, fun k hk => ⟨k, none, by rw [o.gor, if_pos hk]⟩⟩

/-- **C126** refuted: the goroutine of a preheated worker that was collected before it started is left behind. -/
theorem C126_refuted : ¬ C126_full := fun hc => by
  obtain ⟨σ, n, ex, fair, h1, h2⟩ := C126_all_left (mx := 1) (by decide) 1
  obtain ⟨N, h3, h4⟩ := hc 1 1 σ 0 n (by decide) ex fair h1
  have := (h4 N (Nat.le_refl _)).1
  rw [(h2 N h3).1] at this
  cases this

/-- **C126** All together: a pool without preheated workers on which `Stop` is called once is in the end drained. -/
theorem C126_once (hm : 0 < mx) (e : Exec mx 0 σ) (hf : Fair σ) (h : (σ n).stop k ≠ .new)
    (ho : ∀ m k', k' ≠ k → (σ m).stop k' = .new) : ∃ N, n ≤ N ∧ ∀ m, N ≤ m → Drained (σ m) := by
  obtain ⟨a, h1, h2⟩ := C126_stop_returns hm e hf h ho
  obtain ⟨N, h3, h4⟩ := C126_partial hm e hf h2
  exact ⟨N, by omega, h4⟩

/-- A fair execution in which a job runs while the pool is stopped, and its worker ends. -/
example : ∃ σ n, Exec 1 0 σ ∧ Fair σ ∧ (σ n).stop 0 ≠ .new ∧ (∀ m k', k' ≠ 0 → (σ m).stop k' = .new) ∧
    (σ n).handled 0 = 1 := by
  have r0 : Reach 1 0 (init 1 0 (fun _ => 0)) := .init _
  have r1 := r0.step (.call _ 0 rfl)
  have r2 := r1.step (.runFresh _ 0 (by simp [St.setJob]) (by simp [init, St.setJob]) (by simp [init, St.setJob])
    (by simp [init, St.setJob]))
  have r3 := r2.step (.send _ 0 0 0 (by simp [St.setJob, init]) (by simp [St.setJob, St.spawn, init])
    (by simp [St.setJob, St.spawn, init]) (by simp [St.setJob, St.spawn, init]))
  have r4 := r3.step (.begin _ 0 0 (by simp [St.setJob, St.spawn, init]))
  have r5 := r4.step (.take _ 0 0 0 0 (by simp [St.setGor, St.setJob, St.spawn, init]) (by simp [St.setGor, St.setJob, St.spawn, init]))
  have r6 := r5.step (.stopCall _ 0 rfl rfl)
  have r7 := r6.step (.stopSignal _ 0 (by simp [St.setStop]) rfl rfl)
  have r8 := r7.step (.stopAll _ (fun _ => false) rfl (by simp [St.setStop, St.setGor, St.setJob, St.spawn, init, closeAll]))
  have r9 := r8.step (.stopClear _ 0 (by simp [St.setStop]))
  have r10 := r9.step (.handled _ 0 0 0 0 (by simp [St.setStop, St.setGor]))
  have r11 := r10.step (.stamp _ 0 0 0 7 (by simp [St.setGor]))
  have r12 := r11.step (.freeDraining _ 0 0 0 (by simp [St.setGor]) rfl)
  obtain ⟨s, r, hg, hj, hc, hs, hh⟩ : ∃ s, Reach 1 0 s ∧ (∀ k, s.gor k = if k = 0 then .dead else .unborn) ∧
      (∀ j, s.job j = if j = 0 then .accepted else .new) ∧ s.gc = .dead ∧ (∀ k, s.stop k = if k = 0 then .returned else .new) ∧
      s.handled 0 = 1 :=
    ⟨_, r12, fun k => by by_cases e : k = 0 <;> simp [St.setStop, St.setGor, St.setJob, St.spawn, init, e],
      fun k => by by_cases e : k = 0 <;> simp [St.setStop, St.setGor, St.setJob, St.spawn, init, e], rfl,
      fun k => by by_cases e : k = 0 <;> simp [St.setStop, St.setGor, St.setJob, St.spawn, init, e],
      by simp [St.setStop, St.setGor, St.setJob, St.spawn, init]⟩
  obtain ⟨σ, N, ex, hN⟩ := exec_of_reach r
  have news : ∀ m k', k' ≠ 0 → (σ m).stop k' = .new := fun m k' hk => by
    by_contra hn
    have := keeps ex (n := m) (P := fun s => s.stop k' ≠ .new) (fun m _ h st => by
      rcases stop_step (k := k') st with g | g | ⟨_, g⟩ | ⟨_, g⟩
      · rw [g]; exact h
      · exact absurd g h
      · rw [g]; simp
      · rw [g]; simp) hn (max m N) (Nat.le_max_left ..)
    rw [hN _ (Nat.le_max_right ..), hs, if_neg hk] at this
    exact this rfl
  have noch : ∀ i, s.job i ≠ .called := fun i h => by rw [hj] at h; split at h <;> cases h
  have still : ∀ s', Step s s' → s'.gor = s.gor := fun s' st => by
    have no : ∀ k q, s.gor k = q → q ≠ .dead → q ≠ .unborn → False := fun k q h1 h2 h3 => by
      rw [hg] at h1; split at h1
      · exact h2 h1.symm
      · exact h3 h1.symm
    cases st with
    | runPooled i' w' p1 p2 a1 a2 a3 a4 a5 => exact absurd a1 (noch _)
    | runFresh i' a1 a2 a3 a4 => exact absurd a1 (noch _)
    | «begin» k' w' a1 => exact (no _ _ a1 (by simp) (by simp)).elim
    | take k' w' c' j' a1 a2 => exact (no _ _ a1 (by simp) (by simp)).elim
    | rangeEnd k' w' c' a1 a2 a3 => exact (no _ _ a1 (by simp) (by simp)).elim
    | handled k' w' c' j' a1 => exact (no _ _ a1 (by simp) (by simp)).elim
    | stamp k' w' c' t a1 => exact (no _ _ a1 (by simp) (by simp)).elim
    | freeDraining k' w' c' a1 a2 => exact (no _ _ a1 (by simp) (by simp)).elim
    | freeBack k' w' c' a1 a2 => exact (no _ _ a1 (by simp) (by simp)).elim
    | exit k' a1 => exact (no _ _ a1 (by simp) (by simp)).elim
    | _ => rfl
  refine ⟨σ, N, ex, ⟨fun j n hn => ?_, fun k n hn => ?_, fun n hn => ?_, fun k n hn => ?_⟩, ?_, news, by rw [hN N (Nat.le_refl _), hh]⟩
  · obtain ⟨g1, s', st, g⟩ := hn (max n N) (Nat.le_max_left ..)
    rw [hN _ (Nat.le_max_right ..)] at g1 g st
    have j0 : s.job j = .accepted := by
      rw [hj]
      by_cases e : j = 0
      · rw [if_pos e]
      · exact absurd (by rw [hj, if_neg e]) g1
    rcases job_step (j := j) st with h | ⟨h, _⟩ | ⟨h, _⟩ | ⟨⟨w, h⟩, _⟩
    · exact absurd h g
    all_goals rw [j0] at h; cases h
  · obtain ⟨_, s', st, g⟩ := hn (max n N) (Nat.le_max_left ..)
    rw [hN _ (Nat.le_max_right ..)] at g st
    exact absurd (congrFun (still s' st) k) g
  · obtain ⟨_, s', st, g⟩ := hn (max n N) (Nat.le_max_left ..)
    rw [hN _ (Nat.le_max_right ..)] at g st
    exact absurd ((gc_dead st hc).trans hc.symm) g
  · obtain ⟨m, hm, g1, s', st, g⟩ := hn (max n N) (Nat.le_max_left ..)
    rw [hN _ (by omega)] at g1 g st
    have g0 : s.stop k = .returned := by
      rw [hs]
      by_cases e : k = 0
      · rw [if_pos e]
      · exact absurd (by rw [hs, if_neg e]) g1
    rcases stop_step (k := k) st with g' | g' | ⟨g', _⟩ | ⟨g', _⟩
    · exact absurd g' g
    all_goals rw [g0] at g'; cases g'
  · rw [hN N (Nat.le_refl _), hs]; simp

end Verif.PoolDrain
