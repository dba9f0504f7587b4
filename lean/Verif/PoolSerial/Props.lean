import Verif.PoolSerial.Lemmas
/-!
# C134: a pool works on at most maxWorkers jobs at a time, with one worker on one after the other
-/
namespace Verif.PoolSerial
open Verif.GoPool

variable {s s' : St} {mx : Int} {p : Nat}

/-- The full statement of C134. -/
def C134_full : Prop := ∀ (mx : Int) (p : Nat) (s : St), 0 < mx → Reach mx p s → AtMost mx s

/-- **C134, what does hold**: unless more workers are preheated than `maxWorkers`, at no moment of any schedule are more
than `maxWorkers` jobs in progress, also while the pool stops. Missing: `NewTimedPool` accepts larger preheat counts. -/
theorem C134_partial (hm : 0 < mx) (hp : (p : Int) ≤ mx) (r : Reach mx p s) : AtMost mx s :=
  fun l h1 h2 => le_trans (at_most hm r l h1 h2) (C50_bound_partial hm hp r)

/-- With any preheat count: no more than the larger one of the two. -/
theorem C134_max (hm : 0 < mx) (r : Reach mx p s) : AtMost (max mx p) s :=
  fun l h1 h2 => le_trans (at_most hm r l h1 h2) (C50_bound_max hm r)

/-- **C134 with one worker**: at most one job is in progress; when `Run` takes a job on, the handler has returned from
every job that was taken on before. So jobs are handled one after the other in the order in which they are taken on. -/
theorem C134_serial (hp : p ≤ 1) (r : Reach 1 p s) :
    (∀ i j, InProgress s i → InProgress s j → i = j) ∧
    ∀ j s', TakesOn s s' j → ∀ i, ¬ InProgress s i ∧ (s.job i = .accepted → s.handled i = 1) := by
  have one : ∀ {t : St}, Reach 1 p t → ∀ i j, InProgress t i → InProgress t j → i = j := by
    intro t rt i j hi hj
    by_contra hne
    have := C134_partial (by decide) (by exact_mod_cast hp) rt [i, j] (by simp [hne]) (by simp [hi, hj])
    simp at this
  refine ⟨one r, fun j s' t i => ?_⟩
  have hn : ∀ i, ¬ InProgress s i := fun i hi => by
    obtain ⟨h1, h2, h3⟩ := takes_keeps (by decide) r t hi
    exact h1 (one (r.step t.1) i j h2 h3)
  refine ⟨hn i, fun ha => ?_⟩
  have e := exactlyOnce (by decide) r
  rcases Nat.lt_or_ge (s.handled i) 1 with h | h
  · obtain ⟨w, c, k, -, hb, -⟩ := e.notLost i ha (by omega)
    exact absurd (.inr (.inl ⟨c, hb⟩)) (hn i)
  · have := e.atMostOnce i
    omega

/-- Every job that is in progress is the handler's business exactly once, before or after: what `InProgress` leaves out
was handled or never taken on. -/
theorem C134_covers (hm : 0 < mx) (r : Reach mx p s) (j : Nat) (h : ¬ InProgress s j) :
    s.job j = .accepted ∧ s.handled j = 1 ∨ s.handled j = 0 ∧ (s.job j = .new ∨ s.job j = .called ∨ s.job j = .rejected) := by
  have e := exactlyOnce hm r
  cases hj : s.job j with
  | accepted =>
    left
    refine ⟨rfl, ?_⟩
    rcases Nat.lt_or_ge (s.handled j) 1 with h0 | h0
    · obtain ⟨w, c, k, -, hb, -⟩ := e.notLost j hj (by omega)
      exact absurd (.inr (.inl ⟨c, hb⟩)) h
    · have := e.atMostOnce j
      omega
  | sending w => exact absurd (.inl ⟨w, hj⟩) h
  | new => exact .inr ⟨e.onlyAccepted j (by rw [hj]; simp), .inl rfl⟩
  | called => exact .inr ⟨e.onlyAccepted j (by rw [hj]; simp), .inr (.inl rfl)⟩
  | rejected => exact .inr ⟨e.onlyAccepted j (by rw [hj]; simp), .inr (.inr rfl)⟩

/-- **C134 is false**: with `maxWorkers` 1 and two preheated workers two handlers run at the same time. -/
theorem C134_refuted : ¬ C134_full ∧ ∃ s, Reach 1 2 s ∧ s.gor 1 = .handling 1 1 0 ∧ s.gor 0 = .handling 0 0 1 := by
  have key : ∃ s, Reach 1 2 s ∧ s.gor 1 = .handling 1 1 0 ∧ s.gor 0 = .handling 0 0 1 := by
    have r0 : Reach 1 2 (init 1 2 (fun _ => 0)) := .init _
    have r1 := r0.step (.call _ 0 rfl)
    have r2 := r1.step (.runReuse _ 0 [0] 1 (by simp [St.setJob]) (by simp [init, St.setJob]) (by simp [init, St.setJob, List.range_succ]))
    have r3 := r2.step (.send _ 0 1 1 (by simp [St.setJob]) (by simp [init, St.setJob]) (by simp [init, St.setJob]) (by simp [init, St.setJob]))
    have r4 := r3.step (.call _ 1 (by simp [init, St.setJob]))
    have r5 := r4.step (.runReuse _ 1 [] 0 (by simp [St.setJob]) (by simp [init, St.setJob]) (by simp [init, St.setJob]))
    have r6 := r5.step (.send _ 1 0 0 (by simp [St.setJob]) (by simp [init, St.setJob]) (by simp [init, St.setJob]) (by simp [init, St.setJob]))
    have r7 := r6.step (.begin _ 1 1 (by simp [init, St.setJob]))
    have r8 := r7.step (.begin _ 0 0 (by simp [init, St.setJob, St.setGor]))
    have r9 := r8.step (.take _ 1 1 1 0 (by simp [init, St.setJob, St.setGor]) (by simp [init, St.setJob, St.setGor]))
    have r10 := r9.step (.take _ 0 0 0 1 (by simp [init, St.setJob, St.setGor]) (by simp [init, St.setJob, St.setGor]))
    exact ⟨_, r10, by simp [St.setGor], by simp [St.setGor]⟩
  refine ⟨fun h => ?_, key⟩
  obtain ⟨s, r, h1, h2⟩ := key
  have := h 1 2 s (by decide) r [0, 1] (by simp) (by
    intro j hj
    simp only [List.mem_cons, List.not_mem_nil, or_false] at hj
    rcases hj with rfl | rfl
    · exact .inr (.inr ⟨_, _, _, h1⟩)
    · exact .inr (.inr ⟨_, _, _, h2⟩))
  simp at this

/-- With one worker a second job is taken on after the first one was handled. -/
example : ∃ s s', Reach 1 1 s ∧ s.job 0 = .accepted ∧ TakesOn s s' 1 := by
  have r0 : Reach 1 1 (init 1 1 (fun _ => 0)) := .init _
  have r1 := r0.step (.call _ 0 rfl)
  have r2 := r1.step (.runReuse _ 0 [] 0 (by simp [St.setJob]) (by simp [init, St.setJob]) (by simp [init, St.setJob, List.range_succ]))
  have r3 := r2.step (.send _ 0 0 0 (by simp [St.setJob]) (by simp [init, St.setJob]) (by simp [init, St.setJob]) (by simp [init, St.setJob]))
  have r4 := r3.step (.begin _ 0 0 (by simp [init, St.setJob]))
  have r5 := r4.step (.take _ 0 0 0 0 (by simp [init, St.setJob, St.setGor]) (by simp [init, St.setJob, St.setGor]))
  have r6 := r5.step (.handled _ 0 0 0 0 (by simp [St.setGor]))
  have r7 := r6.step (.stamp _ 0 0 0 5 (by simp [St.setGor]))
  have r8 := r7.step (.freeBack _ 0 0 0 (by simp [St.setGor]) (by simp [init, St.setJob, St.setGor]))
  have r9 := r8.step (.call _ 1 (by simp [init, St.setJob, St.setGor]))
  exact ⟨_, _, r9, by simp [init, St.setJob, St.setGor], .runReuse _ 1 [] 0 (by simp [St.setJob]) (by simp [init, St.setJob, St.setGor])
    (by simp [init, St.setJob, St.setGor]), by simp [St.setJob], 0, by simp [St.setJob]⟩

end Verif.PoolSerial
