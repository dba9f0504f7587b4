import Verif.PoolFull.Run
/-!
# C155: a pool turns a job down only when all its workers are taken
-/
namespace Verif.PoolFull
open Verif.GoPool Verif.PoolSerial Verif.PoolFair Verif.PoolDrain

variable {s s' : St} {mx : Int} {j : Nat} {σ : Nat → St}

/-- **C155, every goroutine is accounted for**: in a pool without preheated workers that is not stopped, `Workers()` is the number of
the jobs in progress, of the idle workers, of the goroutines on their way back from the handler and of goroutines that will never
handle a job again. -/
theorem C155_account (hm : 0 < mx) (r : Reach mx 0 s) (hx : s.maxWorkers ≠ -1) :
    ∃ js rs ls : List Nat, JobsAre s js ∧ (rs.Nodup ∧ ∀ k, k ∈ rs ↔ Returning s k) ∧ (ls.Nodup ∧ ∀ k ∈ ls, Leaving s k) ∧
      s.workers = js.length + s.dobby.length + rs.length + ls.length :=
  account hm r hx

/-- A job is turned down by a full pool only. -/
theorem refused_full (h : Refused s s' j) : s.dobby = [] ∧ ¬ s.workers < s.maxWorkers := by
  obtain ⟨st, h1, h2, hx⟩ := h
  have same : ∀ {i q}, q ≠ JobPc.rejected → (if j = i then q else s.job j) ≠ .rejected := fun {i q} hq h => by
    by_cases e : j = i
    · rw [if_pos e] at h; exact hq h
    · rw [if_neg e, h1] at h; cases h
  cases st with
  | runDraining i a b => exact absurd b hx
  | runFull i a b c d => exact ⟨c, d⟩
  | call i a => exact absurd h2 (same (by simp))
  | runReuse i ws w a b c => exact absurd h2 (same (by simp))
  | runPooled i w p p' a b c d f => exact absurd h2 (same (by simp))
  | runFresh i a b c d => exact absurd h2 (same (by simp))
  | send i w c a b d f => exact absurd h2 (same (by simp))
  | _ => exact absurd (h1.symm.trans h2) (by simp)

/-- **C155, what does hold** (partial): without preheated workers, a job is turned down only if jobs in progress, goroutines on their
way back from the handler and goroutines that will never handle a job again are together exactly `maxWorkers`. Missing: goroutines of
the last two kinds need not be there, and preheated workers (`C80_refuted`). -/
theorem C155_partial (hm : 0 < mx) (r : Reach mx 0 s) (h : Refused s s' j) :
    ∃ js rs ls : List Nat, JobsAre s js ∧ (rs.Nodup ∧ ∀ k, k ∈ rs ↔ Returning s k) ∧ (ls.Nodup ∧ ∀ k ∈ ls, Leaving s k) ∧
      mx = js.length + rs.length + ls.length := by
  obtain ⟨js, rs, ls, h1, h2, h3, h4⟩ := account hm r h.2.2.2
  obtain ⟨hd, hw⟩ := refused_full h
  refine ⟨js, rs, ls, h1, h2, h3, ?_⟩
  obtain ⟨g, cn⟩ := cnt_reach hm r
  have hle := cn.le
  have hmx := cn.max.resolve_right h.2.2.2
  rw [hmx] at hw
  rw [hd] at h4
  simp only [List.length_nil] at h4
  have : max mx ((0 : Nat) : Int) = mx := max_eq_left (by simpa using Int.le_of_lt hm)
  rw [this] at hle
  omega

/-- So a job is taken on if no goroutine is on its way back or out and fewer than `maxWorkers` jobs are in progress. -/
theorem C155_accepts (hm : 0 < mx) (r : Reach mx 0 s) (hr : ∀ k, ¬ Returning s k) (hl : ∀ k, ¬ Leaving s k) (js : List Nat)
    (hj : JobsAre s js) (hn : (js.length : Int) < mx) : ¬ Refused s s' j := by
  intro h
  obtain ⟨js', rs, ls, h1, h2, h3, h4⟩ := C155_partial hm r h
  have e1 : js'.length = js.length :=
    ((List.perm_ext_iff_of_nodup h1.1 hj.1).2 fun j => (h1.2 j).trans (hj.2 j).symm).length_eq
  have e2 : rs = [] := List.eq_nil_iff_forall_not_mem.2 fun k hk => hr k ((h2.2 k).1 hk)
  have e3 : ls = [] := List.eq_nil_iff_forall_not_mem.2 fun k hk => hl k (h3.2 k hk)
  rw [e1, e2, e3] at h4
  simp at h4
  omega

/-- **C155, nobody is turned down for ever**: in a fair execution of a pool without preheated workers that is never stopped and whose
handlers return, if `Run` is called again and again, then jobs are taken on again and again. -/
theorem C155_progress (hm : 0 < mx) (e : Exec mx 0 σ) (hf : Fair σ) (hx : ∀ m, (σ m).maxWorkers ≠ -1)
    (hc : ∀ n, ∃ m, n ≤ m ∧ ∃ j, (σ m).job j = .called) : ∀ n, ∃ m, n ≤ m ∧ TakesOnAt σ m := by
  intro N
  by_contra hno
  have hn : ∀ m, N ≤ m → ¬ TakesOnAt σ m := fun m h1 h2 => hno ⟨m, h1, h2⟩
  obtain ⟨R, h1, hr⟩ := full_rest hm e hx hn
  obtain ⟨m, h2, j, hj⟩ := hc R
  have : ∃ a, m ≤ a ∧ (σ a).job j = (σ m).job j ∧ (σ (a + 1)).job j ≠ (σ a).job j := by
    by_contra hcc
    have stay := moves (f := fun s => s.job j) hcc
    obtain ⟨a, h3, h4⟩ := hf.runs j m fun a ha => by
      have h3 : (σ a).job j = .called := (stay a ha).trans hj
      exact ⟨by simp [h3], called_enabled h3⟩
    exact h4 ((stay (a + 1) (by omega)).trans (stay a h3).symm)
  obtain ⟨a, h3, h4, h5⟩ := this
  rw [hj] at h4
  rcases e.next a with st | st
  · rcases job_step (j := j) st with g | ⟨g, _⟩ | ⟨_, g | ⟨w, g⟩⟩ | ⟨⟨w, g⟩, _⟩
    · exact h5 g
    · rw [h4] at g; cases g
    · obtain ⟨hd, hw⟩ := refused_full ⟨st, h4, g, hx a⟩
      rcases rest_ready hm e hf hx hr (m := a) (by omega) with g' | g'
      · exact g' hd
      · exact hw g'
    · exact hn a (by omega) ⟨j, w, h4, g⟩
    · rw [h4] at g; cases g
  · exact h5 (by rw [st])

/-- The pool of `endless` has one worker; it is fair, never stopped and called in every round. -/
example : ∀ n, ∃ m, n ≤ m ∧ TakesOnAt endless m :=
  C155_progress (by decide) endless_exec endless_fair endless_runs endless_calls

/-- `C155_account` in the third round of that pool, whose worker is handling a job. -/
example : ∃ js rs ls : List Nat, JobsAre (mid 3 4) js ∧ (rs.Nodup ∧ ∀ k, k ∈ rs ↔ Returning (mid 3 4) k) ∧
    (ls.Nodup ∧ ∀ k ∈ ls, Leaving (mid 3 4) k) ∧ (1 : Int) = js.length + 0 + rs.length + ls.length := by
  have h : endless 32 = mid 3 4 := endless_at 3 4 (by omega) (by omega)
  exact C155_account (by decide) (h ▸ endless_exec.reach 32) (h ▸ endless_runs 32)

/-- Two workers, one job in progress: no step turns the second job down. -/
example : ∃ s, Reach 2 0 s ∧ s.job 1 = .called ∧ (∃ l : List Nat, JobsAre s l ∧ l = [0]) ∧ ∀ s', ¬ Refused s s' 1 := by
  have r0 : Reach 2 0 (init 2 0 (fun _ => 0)) := .init _
  have r1 := r0.step (.call _ 0 rfl)
  have r2 := r1.step (.runFresh _ 0 (by simp [St.setJob]) (by simp [init, St.setJob]) (by simp [init, St.setJob]) (by simp [init, St.setJob]))
  have r3 := r2.step (.send _ 0 0 0 (by simp [St.setJob, St.spawn, init]) (by simp [init, St.setJob, St.spawn]) (by simp [init, St.setJob, St.spawn]) (by simp [init, St.setJob, St.spawn]))
  have r4 := r3.step (.begin _ 0 0 (by simp [init, St.setJob, St.spawn]))
  have r5 := r4.step (.take _ 0 0 0 0 (by simp [init, St.setJob, St.setGor, St.spawn]) (by simp [init, St.setJob, St.setGor, St.spawn]))
  have r6 := r5.step (.call _ 1 (by simp [init, St.setJob, St.setGor, St.spawn]))
  revert r6
  generalize hs : St.setJob _ 1 .called = s
  intro r6
  have g0 : s.gor 0 = .handling 0 0 0 := by rw [← hs]; simp [init, St.setJob, St.setGor, St.spawn]
  have gk : ∀ k, k ≠ 0 → s.gor k = .unborn := fun k hk => by rw [← hs]; simp [hk, init, St.setJob, St.setGor, St.spawn]
  have hb : ∀ c, s.buf c = none := fun c => by rw [← hs]; simp [init, St.setJob, St.setGor, St.spawn]
  have hj : ∀ j w, s.job j ≠ .sending w := fun j w => by
    rw [← hs]
    simp only [init, St.setJob, St.setGor, St.spawn]
    repeat' split
    all_goals simp
  have ja : JobsAre s [0] := by
    refine ⟨by simp, fun j => ⟨fun h => ?_, fun h => ?_⟩⟩
    · rw [List.mem_singleton] at h; subst h; exact .inr (.inr ⟨0, 0, 0, g0⟩)
    · rcases h with ⟨w, h⟩ | ⟨c, h⟩ | ⟨k, w, c, h⟩
      · exact absurd h (hj j w)
      · rw [hb] at h; cases h
      · by_cases hk : k = 0
        · subst hk; rw [g0] at h; cases h; simp
        · rw [gk k hk] at h; cases h
  refine ⟨s, r6, by rw [← hs]; simp [St.setJob], ⟨_, ja, rfl⟩, fun s' => C155_accepts (by decide) r6 (fun k h => ?_) (fun k h => ?_) [0] ja (by decide)⟩
  · by_cases hk : k = 0
    · subst hk; rcases h with ⟨w, c, h⟩ | ⟨w, c, h⟩ <;> rw [g0] at h <;> cases h
    · rcases h with ⟨w, c, h⟩ | ⟨w, c, h⟩ <;> rw [gk k hk] at h <;> cases h
  · by_cases hk : k = 0
    · subst hk; exact h.2 s .refl _ _ _ g0
    · have := h.1; rw [gk k hk] at this; cases this

/-! ## The claim is false -/

section
open GorPc

theorem none_in_progress (h1 : ∀ j w, s.job j ≠ .sending w) (h2 : ∀ c j, s.buf c ≠ some j) (h3 : ∀ k w c j, s.gor k ≠ .handling w c j) :
    JobsAre s [] :=
  ⟨List.nodup_nil, fun j => ⟨fun h => (by cases h), fun h => by
    rcases h with ⟨w, h⟩ | ⟨c, h⟩ | ⟨k, w, c, h⟩
    · exact absurd h (h1 j w)
    · exact absurd h (h2 c j)
    · exact absurd h (h3 k w c j)⟩⟩

/-- **C155 is false**: the only handler has returned, nothing is in progress and the pool turns a job down, since the goroutine has
not yet put its worker on the idle list. -/
theorem C155_after_handler : ∃ s s', Reach 1 0 s ∧ Refused s s' 1 ∧ JobsAre s [] ∧ Returning s 0 ∧ s.handled 0 = 1 := by
  have r0 : Reach 1 0 (init 1 0 (fun _ => 0)) := .init _
  have r1 := r0.step (.call _ 0 rfl)
  have r2 := r1.step (.runFresh _ 0 (by simp [St.setJob]) (by simp [init, St.setJob]) (by simp [init, St.setJob]) (by simp [init, St.setJob]))
  have r3 := r2.step (.send _ 0 0 0 (by simp [St.setJob, St.spawn, init]) (by simp [init, St.setJob, St.spawn]) (by simp [init, St.setJob, St.spawn]) (by simp [init, St.setJob, St.spawn]))
  have r4 := r3.step (.begin _ 0 0 (by simp [init, St.setJob, St.spawn]))
  have r5 := r4.step (.take _ 0 0 0 0 (by simp [init, St.setJob, St.setGor, St.spawn]) (by simp [init, St.setJob, St.setGor, St.spawn]))
  have r6 := r5.step (.handled _ 0 0 0 0 (by simp [St.setGor]))
  have r7 := r6.step (.call _ 1 (by simp [init, St.setJob, St.setGor, St.spawn]))
  refine ⟨_, _, r7, ⟨.runFull _ 1 (by simp [St.setJob]) (by simp [init, St.setJob, St.setGor, St.spawn])
    (by simp [init, St.setJob, St.setGor, St.spawn]) (by simp [init, St.setJob, St.setGor, St.spawn]), by simp [St.setJob],
    by simp [St.setJob], by simp [init, St.setJob, St.setGor, St.spawn]⟩, none_in_progress ?_ ?_ ?_, .inl ⟨0, 0, ?_⟩, ?_⟩
  · intro j w
    simp only [init, St.setJob, St.setGor, St.spawn]
    repeat' split
    all_goals simp
  · intro c j
    simp only [init, St.setJob, St.setGor, St.spawn]
    repeat' split
    all_goals simp
  · intro k w c j
    by_cases hk : k = 0 <;> simp [hk, init, St.setJob, St.setGor, St.spawn]
  · simp [St.setJob, St.setGor]
  · simp [init, St.setJob, St.setGor, St.spawn]

/-- Also while the collector stops idle workers: nothing is in progress, no handler has just returned, and the pool turns a job
down. -/
theorem C155_while_collecting : ∃ s s', Reach 1 0 s ∧ Refused s s' 1 ∧ JobsAre s [] ∧ (∀ k, ¬ Returning s k) ∧ Leaving s 0 := by
  have r0 : Reach 1 0 (init 1 0 (fun _ => 0)) := .init _
  have r1 := r0.step (.call _ 0 rfl)
  have r2 := r1.step (.runFresh _ 0 (by simp [St.setJob]) (by simp [init, St.setJob]) (by simp [init, St.setJob]) (by simp [init, St.setJob]))
  have r3 := r2.step (.send _ 0 0 0 (by simp [St.setJob, St.spawn, init]) (by simp [init, St.setJob, St.spawn]) (by simp [init, St.setJob, St.spawn]) (by simp [init, St.setJob, St.spawn]))
  have r4 := r3.step (.begin _ 0 0 (by simp [init, St.setJob, St.spawn]))
  have r5 := r4.step (.take _ 0 0 0 0 (by simp [init, St.setJob, St.setGor, St.spawn]) (by simp [init, St.setJob, St.setGor, St.spawn]))
  have r6 := r5.step (.handled _ 0 0 0 0 (by simp [St.setGor]))
  have r7 := r6.step (.stamp _ 0 0 0 5 (by simp [St.setGor]))
  have r8 := r7.step (.freeBack _ 0 0 0 (by simp [St.setGor]) (by simp [init, St.setJob, St.setGor, St.spawn]))
  have r9 := r8.step (.tick _ 9 1 (by simp [init, St.setJob, St.setGor, St.spawn]) (by simp [init, St.setJob, St.setGor, St.spawn])
    (by simp [init, St.setJob, St.setGor, St.spawn, cut, cutLoop]))
  have r10 := r9.step (.call _ 1 (by simp [init, St.setJob, St.setGor, St.spawn]))
  refine ⟨_, _, r10, ⟨.runFull _ 1 (by simp [St.setJob]) (by simp [init, St.setJob, St.setGor, St.spawn])
    (by simp [init, St.setJob, St.setGor, St.spawn]) (by simp [init, St.setJob, St.setGor, St.spawn]), by simp [St.setJob],
    by simp [St.setJob], by simp [init, St.setJob, St.setGor, St.spawn]⟩, none_in_progress ?_ ?_ ?_, ?_,
    out_leaving (by decide) r10 (.inr (.inr ⟨0, 0, ?_, .inr ?_⟩)) ?_⟩
  · intro j w
    simp only [init, St.setJob, St.setGor, St.spawn]
    repeat' split
    all_goals simp
  · intro c j
    simp only [init, St.setJob, St.setGor, St.spawn]
    repeat' split
    all_goals simp
  · intro k w c j
    by_cases hk : k = 0 <;> simp [hk, init, St.setJob, St.setGor, St.spawn]
  · intro k
    by_cases hk : k = 0 <;> simp [Returning, hk, init, St.setJob, St.setGor, St.spawn]
  · simp [St.setJob, St.setGor]
  · simp [init, St.setJob, St.setGor, St.spawn, GcPc.held]
  · simp [St.setJob, St.setGor, GorPc.live]

theorem C155_refuted : ¬ C155_full := fun h => by
  obtain ⟨s, s', r, hr, hj, _⟩ := C155_after_handler
  obtain ⟨l, hl, hn⟩ := h 1 0 s s' 1 (by decide) r hr
  have : l = [] := List.eq_nil_iff_forall_not_mem.2 fun j h => by
    have := (hj.2 j).2 ((hl.2 j).1 h); cases this
  rw [this] at hn
  simp at hn

end

end Verif.PoolFull
