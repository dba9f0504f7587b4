import Verif.PoolFair.Lemmas
/-!
# C125: what is bound to happen in the goroutine pool
-/
namespace Verif.PoolFair
open Verif.GoPool

variable {mx : Int} {p : Nat} {σ : Nat → St} {j n : Nat}

/-- Every call of `Run` returns. -/
theorem C125_run_returns (hm : 0 < mx) (e : Exec mx p σ) (hf : FairRuns σ) (h : (σ n).job j ≠ .new) :
    ∃ m, n ≤ m ∧ ((σ m).job j = .accepted ∨ (σ m).job j = .rejected) := by
  -- a call that is under way moves on
  have go : ∀ n, ((σ n).job j = .called ∨ ∃ w, (σ n).job j = .sending w) →
      ∃ m, n ≤ m ∧ (σ m).job j = (σ n).job j ∧ (σ (m + 1)).job j ≠ (σ m).job j := fun n hn => by
    by_contra hc
    have same : ∀ m, n ≤ m → (σ m).job j = (σ n).job j := fun m hm => by
      induction m, hm using Nat.le_induction with
      | base => rfl
      | succ m hm ih =>
        by_contra hd
        exact hc ⟨m, hm, ih, fun h => hd (h.trans ih)⟩
    obtain ⟨m, h1, h2⟩ := hf j n fun m hnm => by
      refine ⟨by show (σ m).job j ≠ .new; rw [same m hnm]; rcases hn with g | ⟨w, g⟩ <;> rw [g] <;> simp, ?_⟩
      rcases hn with g | ⟨w, g⟩
      · exact called_enabled ((same m hnm).trans g)
      · have g' := (same m hnm).trans g
        obtain ⟨s', a, b⟩ := sendable hm (e.reach m) g'
        exact ⟨s', a, by simp [b, g']⟩
    exact h2 ((same (m + 1) (by omega)).trans (same m h1).symm)
  have sent : ∀ n w, (σ n).job j = .sending w → ∃ m, n ≤ m ∧ (σ m).job j = .accepted := fun n w hn => by
    obtain ⟨m, h1, h2, h3⟩ := go n (.inr ⟨w, hn⟩)
    rw [hn] at h2
    rcases e.next m with st | st
    · rcases job_step (j := j) st with g | ⟨g, _⟩ | ⟨g, _⟩ | ⟨_, g⟩
      · exact absurd g h3
      · rw [h2] at g; cases g
      · rw [h2] at g; cases g
      · exact ⟨m + 1, by omega, g⟩
    · exact absurd (by rw [st]) h3
  cases hj : (σ n).job j with
  | new => exact absurd hj h
  | called =>
    obtain ⟨m, h1, h2, h3⟩ := go n (.inl hj)
    rw [hj] at h2
    rcases e.next m with st | st
    · rcases job_step (j := j) st with g | ⟨g, _⟩ | ⟨_, g | ⟨w, g⟩⟩ | ⟨⟨w, g⟩, _⟩
      · exact absurd g h3
      · rw [h2] at g; cases g
      · exact ⟨m + 1, by omega, .inr g⟩
      · obtain ⟨m', h4, h5⟩ := sent (m + 1) w g
        exact ⟨m', by omega, .inl h5⟩
      · rw [h2] at g; cases g
    · exact absurd (by rw [st]) h3
  | sending w =>
    obtain ⟨m, h1, h2⟩ := sent n w hj
    exact ⟨m, h1, .inl h2⟩
  | accepted => exact ⟨n, Nat.le_refl _, .inl hj⟩
  | rejected => exact ⟨n, Nat.le_refl _, .inr hj⟩

/-- Every job whose `Run` returned true is handed to the handler, and only once, whatever other handlers do: they may never
return. -/
theorem C125_handled (hm : 0 < mx) (e : Exec mx p σ) (hf : FairWorkers σ) (h : (σ n).job j = .accepted) :
    ∃ m, n ≤ m ∧ ∀ m', m ≤ m' → (σ m').handled j = 1 := by
  have mono : ∀ a b, a ≤ b → (σ a).handled j ≤ (σ b).handled j := fun a b hab => by
    induction b, hab using Nat.le_induction with
    | base => exact Nat.le_refl _
    | succ b _ ih =>
      refine ih.trans ?_
      rcases e.next b with st | st
      · exact handled_mono st
      · rw [st]
  have le1 : ∀ m, (σ m).handled j ≤ 1 := fun m => (exactlyOnce hm (e.reach m)).atMostOnce j
  suffices hs : ∃ m, n ≤ m ∧ (σ m).handled j ≠ 0 by
    obtain ⟨m, h1, h2⟩ := hs
    exact ⟨m, h1, fun m' hm' => by have := mono m m' hm'; have := le1 m'; omega⟩
  by_contra hc
  have zero : ∀ m, n ≤ m → (σ m).handled j = 0 := fun m h1 => by
    by_contra h2
    exact hc ⟨m, h1, h2⟩
  -- a goroutine that waits on the job's channel
  have stuck : ∀ a k w c, n ≤ a → ¬ Waits (σ a) j k w c := fun a k w c ha hw => by
    have keep : ∀ m, a ≤ m → Waits (σ m) j k w c := fun m h1 => by
      induction m, h1 using Nat.le_induction with
      | base => exact hw
      | succ m h1 ih =>
        rcases e.next m with st | st
        · obtain ⟨tok, cw, rdr, jc, i⟩ := inv_reach hm (e.reach m)
          exact waits_step i st (zero _ (by omega)) ih
        · rw [st]; exact ih
    obtain ⟨m, h1, h2⟩ := hf k a fun m h1 => by
      obtain ⟨g1, g2⟩ := keep m h1
      exact ⟨fun w' c' j' => by rw [g1]; simp, _, .take _ k w c j g1 g2, by simp [St.setGor, g1]⟩
    exact h2 ((keep (m + 1) (by omega)).1.trans (keep m h1).1.symm)
  obtain ⟨tok, cw, rdr, jc, i⟩ := inv_reach hm (e.reach n)
  obtain ⟨w, c, k, g1, g2, _, g3 | g3, _⟩ := accepted_queued i h (zero n (Nat.le_refl _))
  · have keep : ∀ m, n ≤ m → Begins (σ m) j k w c := fun m h1 => by
      induction m, h1 using Nat.le_induction with
      | base => exact ⟨g3, g1, g2⟩
      | succ m h1 ih =>
        rcases e.next m with st | st
        · obtain ⟨tok, cw, rdr, jc, i⟩ := inv_reach hm (e.reach m)
          exact (begins_step i st (zero _ (by omega)) ih).resolve_right (stuck _ k w c (by omega))
        · rw [st]; exact ih
    obtain ⟨m, h1, h2⟩ := hf k n fun m h1 => by
      obtain ⟨g1, g2, g3⟩ := keep m h1
      exact ⟨fun w' c' j' => by rw [g1]; simp, _, .begin _ k w g1, by simp [St.setGor, g1]⟩
    exact h2 ((keep (m + 1) (by omega)).1.trans (keep m h1).1.symm)
  · exact stuck n k w c (Nat.le_refl _) ⟨g3, g2⟩

/-- **C125**: in every fair execution every call of `Run` returns; if it returned true its job is in the end handled exactly once,
and if it returned false never. -/
theorem C125_outcome (hm : 0 < mx) (e : Exec mx p σ) (hr : FairRuns σ) (hw : FairWorkers σ) (h : (σ n).job j ≠ .new) :
    ∃ m, n ≤ m ∧ (((σ m).job j = .accepted ∧ ∀ m', m ≤ m' → (σ m').handled j = 1) ∨
      ((σ m).job j = .rejected ∧ ∀ m', (σ m').handled j = 0)) := by
  have stays : ∀ (q : JobPc), (q = .accepted ∨ q = .rejected) → ∀ a b, a ≤ b → (σ a).job j = q → (σ b).job j = q :=
    fun q hq a b hab ha => by
      induction b, hab using Nat.le_induction with
      | base => exact ha
      | succ b _ ih =>
        rcases e.next b with st | st
        · rcases job_step (j := j) st with g | ⟨g, _⟩ | ⟨g, _⟩ | ⟨⟨w, g⟩, _⟩
          · exact g.trans ih
          all_goals rcases hq with rfl | rfl <;> rw [ih] at g <;> cases g
        · rw [st]; exact ih
  obtain ⟨m, h1, h2 | h2⟩ := C125_run_returns hm e hr h
  · obtain ⟨m', h3, h4⟩ := C125_handled hm e hw h2
    exact ⟨m', by omega, .inl ⟨stays _ (.inl rfl) m m' h3 h2, h4⟩⟩
  · refine ⟨m, h1, .inr ⟨h2, fun m' => ?_⟩⟩
    refine (exactlyOnce hm (e.reach m')).onlyAccepted j fun h3 => ?_
    rcases Nat.le_total m m' with g | g
    · have := stays _ (.inr rfl) m m' g h2
      rw [h3] at this; cases this
    · have := stays _ (.inl rfl) m' m g h3
      rw [h2] at this; cases this

/-- A state of a pool in which the only job is with a handler. -/
structure Busy (s : St) : Prop where
  g0 : s.gor 0 = .handling 0 0 0
  g : ∀ k, k ≠ 0 → s.gor k = .unborn
  j0 : s.job 0 = .accepted
  j : ∀ i, i ≠ 0 → s.job i = .new

/-- Every reachable state is where some execution stays. -/
theorem exec_of_reach {s : St} (r : Reach mx p s) : ∃ (σ : Nat → St) (N : Nat), Exec mx p σ ∧ ∀ m, N ≤ m → σ m = s := by
  induction r with
  | init t => exact ⟨fun _ => init mx p t, 0, ⟨⟨t, rfl⟩, fun _ => .inr rfl⟩, fun _ _ => rfl⟩
  | @step s s' _ st ih =>
    obtain ⟨σ, N, e, h⟩ := ih
    refine ⟨fun n => if n ≤ N then σ n else s', N + 1, ⟨by simpa using e.start, fun n => ?_⟩, fun m hm => if_neg (by omega)⟩
    by_cases h1 : n + 1 ≤ N
    · simpa [show n ≤ N by omega, h1] using e.next n
    · by_cases h2 : n ≤ N
      · have : n = N := by omega
        subst this
        left
        simpa [h n (Nat.le_refl _)] using st
      · right; simp [h1, h2]

theorem busy_reach : ∃ s, Reach 1 0 s ∧ Busy s := by
  have r0 : Reach 1 0 (init 1 0 (fun _ => 0)) := .init _
  have r1 := r0.step (.call _ 0 rfl)
  have r2 := r1.step (.runFresh _ 0 (by simp [St.setJob]) (by simp [init, St.setJob]) (by simp [init, St.setJob])
    (by simp [init, St.setJob]))
  have r3 := r2.step (.send _ 0 0 0 (by simp [St.setJob, init]) (by simp [St.setJob, St.spawn, init])
    (by simp [St.setJob, St.spawn, init]) (by simp [St.setJob, St.spawn, init]))
  have r4 := r3.step (.begin _ 0 0 (by simp [St.setJob, St.spawn, init]))
  have r5 := r4.step (.take _ 0 0 0 0 (by simp [St.setGor, St.setJob, St.spawn, init]) (by simp [St.setGor, St.setJob, St.spawn, init]))
  refine ⟨_, r5, ⟨by simp [St.setGor], fun k hk => ?_, by simp [St.setGor, St.setJob], fun i hi => ?_⟩⟩
  · simp [St.setGor, St.setJob, St.spawn, init, hk]
  · simp [St.setGor, St.setJob, St.spawn, init, hi]

theorem Busy.gor {s s' : St} (b : Busy s) (st : Step s s') {k : Nat} (hk : k ≠ 0) : s'.gor k = s.gor k := by
  have nc : ∀ i, s.job i ≠ .called := fun i h => by
    by_cases e : i = 0
    · rw [e, b.j0] at h; cases h
    · rw [b.j i e] at h; cases h
  have is0 : ∀ {k' : Nat} {q q' : GorPc}, s.gor k' = q → q ≠ .unborn → (if k = k' then q' else s.gor k) = s.gor k := fun {k' q q'} h1 h2 => by
    have : k' = 0 := by
      by_contra e
      exact h2 (h1.symm.trans (b.g k' e))
    rw [if_neg (by omega)]
  cases st with
  | runPooled i' w' p1 p2 a1 a2 a3 a4 a5 => exact absurd a1 (nc _)
  | runFresh i' a1 a2 a3 a4 => exact absurd a1 (nc _)
  | «begin» k' w' a1 => exact is0 a1 (by simp)
  | take k' w' c' j' a1 a2 => exact is0 a1 (by simp)
  | rangeEnd k' w' c' a1 a2 a3 => exact is0 a1 (by simp)
  | handled k' w' c' j' a1 => exact is0 a1 (by simp)
  | stamp k' w' c' t a1 => exact is0 a1 (by simp)
  | freeDraining k' w' c' a1 a2 => exact is0 a1 (by simp)
  | freeBack k' w' c' a1 a2 => exact is0 a1 (by simp)
  | exit k' a1 => exact is0 a1 (by simp)
  | _ => rfl

/-- A fair execution in which a job was accepted, and its handler never returns. -/
example : ∃ σ n, Exec 1 0 σ ∧ FairRuns σ ∧ FairWorkers σ ∧ (σ n).job 0 = .accepted ∧ ∀ m, n ≤ m → (σ m).gor 0 = .handling 0 0 0 := by
  obtain ⟨s, r, b⟩ := busy_reach
  obtain ⟨σ, N, e, h⟩ := exec_of_reach r
  refine ⟨σ, N, e, fun j n hn => ?_, fun k n hn => ?_, by rw [h N (Nat.le_refl _)]; exact b.j0, fun m hm => by rw [h m hm]; exact b.g0⟩
  · obtain ⟨h1, s', st, h2⟩ := hn (max n N) (Nat.le_max_left ..)
    rw [h _ (Nat.le_max_right ..)] at h1 st h2
    by_cases hj : j = 0
    · subst hj
      rcases job_step (j := 0) st with g | ⟨g, _⟩ | ⟨g, _⟩ | ⟨⟨w, g⟩, _⟩
      · exact absurd g h2
      all_goals rw [b.j0] at g; cases g
    · exact absurd (b.j j hj) h1
  · obtain ⟨h1, s', st, h2⟩ := hn (max n N) (Nat.le_max_left ..)
    rw [h _ (Nat.le_max_right ..)] at h1 st h2
    by_cases hk : k = 0
    · subst hk; exact absurd b.g0 (h1 0 0 0)
    · exact absurd (b.gor st hk) h2

end Verif.PoolFair
