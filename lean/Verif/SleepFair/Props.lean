import Verif.SleepFair.Lemmas
/-!
# C129: every call of a Sleeper returns, and who keeps waking wakes
-/
namespace Verif.SleepFair
open Verif.Sleep

variable {σ : Nat → St} {g w n : Nat}

/-- **C129.** In every fair execution in which some goroutine calls `Wakeup` again and again, every
`SleepForever` returns. -/
def C129_full : Prop := ∀ σ, Exec σ → Fair σ → ∀ w, KeepsWaking w σ → ∀ g n, InSleep true ((σ n).pc g) → SleepReturns σ g n

/-- **C129, what does hold**: if no other goroutine ever calls `Wakeup`. One call may be lost (C42), but
not two. Missing from the full claim: several goroutines that call `Wakeup`, where it is false. -/
theorem C129_partial (e : Exec σ) (f : Fair σ) (k : KeepsWaking w σ) (o : OnlyWaker w σ)
    (h : InSleep true ((σ n).pc g)) : SleepReturns σ g n := by
  rcases leave_begin e f h with hr | ⟨n, c, hn, hw⟩
  · exact hr
  refine SleepReturns.mono ?_ hn
  by_contra hnr
  -- the call waits for ever
  have stay : ∀ d, (σ (n + d)).pc g = .wait c true := by
    intro d
    induction d with
    | zero => exact hw
    | succ d ih =>
      rw [show n + (d + 1) = n + d + 1 by omega]
      rcases e.next (n + d) with ⟨g', st⟩ | st
      · by_cases hg : g = g'
        · subst hg
          exact absurd ((leave_release e f (wait_step ih st)).mono (by omega)) hnr
        · rw [other_step st hg]; exact ih
      · rw [st]; exact ih
  have stay' : ∀ m, n ≤ m → (σ m).pc g = .wait c true := fun m hm => by
    have := stay (m - n)
    rwa [show n + (m - n) = m by omega] at this
  have cmono : ∀ m d, (σ m).canceled c = true → (σ (m + d)).canceled c = true := by
    intro m d hm
    induction d with
    | zero => exact hm
    | succ d ih =>
      rcases e.next (m + d) with ⟨g', st⟩ | st
      · exact canceled_step st ih
      · rw [show m + (d + 1) = m + d + 1 by omega, st]; exact ih
  have never : ∀ m, n ≤ m → (σ m).canceled c = false := by
    intro m hm
    by_contra hc
    obtain ⟨m', hm', hp, st⟩ := leave e f rfl (stay' m hm) (fun m' hm' hp => by
      have := cmono m (m' - m) (by simpa using hc)
      rw [show m + (m' - m) = m' by omega] at this
      exact ⟨_, .done _ c true hp this⟩)
    have := wait_step hp st
    rw [stay' (m' + 1) (by omega)] at this
    cases this
  obtain ⟨m, hm, hl⟩ := k n
  obtain ⟨m1, hm1, hp1, st1⟩ := leave e f rfl hl (fun m _ h => by
    cases hs : (σ m).slept
    · exact ⟨_, .loadNo _ h hs⟩
    · exact ⟨_, .loadYes _ h hs⟩)
  have hcc := (C42_sleeper_seen (e.reach m1) (h := g) (by rw [stay' m1 (by omega)]; rfl) hp1).2 _ st1
  obtain ⟨m2, hm2, hp2, st2⟩ := leave e f rfl hcc (fun m _ h => ⟨_, .callCancel _ h⟩)
  have i := inv1_reach (e.reach1 o m2)
  have hctx : c = (σ m2).ctx := by
    rcases i.waits g c true (stay' m2 (by omega)) with hc | hc
    · exact hc
    · rw [never m2 (by omega)] at hc; cases hc
  have hq := (i.quiet (by rw [hp2]; rfl)).1
  have hcan := (callCancel_step hp2 st2).2
  rw [← hq, ← hctx, never (m2 + 1) (by omega)] at hcan
  cases hcan

/-- **C129, sleeps with a timer**: in every fair execution every `SleepFor` and every `SleepUntil`
returns, whoever wakes. -/
theorem C129_timed (e : Exec σ) (f : Fair σ) (h : InSleep false ((σ n).pc g)) : SleepReturns σ g n := by
  rcases leave_begin e f h with hr | ⟨m, c, hm, hw⟩
  · exact hr
  obtain ⟨m', hm', hp, st⟩ := leave e f rfl hw (fun m _ h => ⟨_, .timer _ c h⟩)
  exact (leave_release e f (wait_step hp st)).mono (by omega)

/-- **C129, `Wakeup`**: in every fair execution every `Wakeup` returns. -/
theorem C129_wakeup_returns (e : Exec σ) (f : Fair σ) (h : (σ n).pc g = .load) :
    ∃ m b, n ≤ m ∧ (σ m).pc g = .wakeRet b := by
  obtain ⟨m1, hm1, hp1, st1⟩ := leave e f rfl h (fun m _ h => by
    cases hs : (σ m).slept
    · exact ⟨_, .loadNo _ h hs⟩
    · exact ⟨_, .loadYes _ h hs⟩)
  rcases load_step hp1 st1 with h | h
  · exact ⟨m1 + 1, false, by omega, h⟩
  obtain ⟨m2, hm2, hp2, st2⟩ := leave e f rfl h (fun m _ h => ⟨_, .callCancel _ h⟩)
  obtain ⟨m3, hm3, hp3, st3⟩ := leave e f rfl (callCancel_step hp2 st2).1 (fun m _ h => ⟨_, .writeCtx _ h⟩)
  obtain ⟨m4, hm4, hp4, st4⟩ := leave e f rfl (writeCtx_step hp3 st3) (fun m _ h => ⟨_, .writeCancel _ _ h⟩)
  exact ⟨m4 + 1, true, by omega, writeCancel_step hp4 st4⟩

/-! The witness: after two overlapping calls of `Wakeup`, goroutine 0 waits on a context that nobody
will cancel, and goroutine 1 calls `Wakeup` for ever. -/

/-- What goroutine 1 does next. -/
def wake (s : St) : St := match s.pc 1 with
  | .load => s.at 1 .callCancel
  | .callCancel => { s with canceled := fun c => if c = s.cancel then true else s.canceled c }.at 1 .writeCtx
  | .writeCtx => { s with ctx := s.next, next := s.next + 1 }.at 1 (.writeCancel s.next)
  | .writeCancel c => { s with cancel := c }.at 1 (.wakeRet true)
  | _ => s.at 1 .load

structure Lost (s : St) : Prop where
  sleeper : s.pc 0 = .wait 2 true
  slept : s.slept = true
  dead : s.canceled 2 = false
  next : 2 < s.next
  cancel : s.cancel ≠ 2
  mine : (s.pc 1).free = true ∨ s.pc 1 = .load ∨ s.pc 1 = .callCancel ∨ s.pc 1 = .writeCtx ∨ ∃ c, c ≠ 2 ∧ s.pc 1 = .writeCancel c
  rest : ∀ g, g ≠ 0 → g ≠ 1 → (s.pc g).free = true

theorem lost_step {s : St} (l : Lost s) : Lost (wake s) ∧ Step 1 s (wake s) ∧ (wake s).pc 1 ≠ s.pc 1 := by
  obtain ⟨h1, h2, h3, h4, h5, h6, h7⟩ := l
  rcases h6 with h | h | h | h | ⟨c, hc, h⟩
  · have hw : wake s = s.at 1 .load := by
      unfold wake
      cases hp : s.pc 1 <;> simp_all [Pc.free]
    rw [hw]
    refine ⟨⟨by simpa [at_pc] using h1, h2, h3, h4, h5, by simp [at_pc], fun g a b => by simpa [at_pc, b] using h7 g a b⟩,
      .callWakeup s h, ?_⟩
    intro hp
    simp only [at_pc, if_true] at hp
    rw [← hp] at h
    cases h
  · have hw : wake s = s.at 1 .callCancel := by simp [wake, h]
    rw [hw]
    exact ⟨⟨by simpa [at_pc] using h1, h2, h3, h4, h5, by simp [at_pc], fun g a b => by simpa [at_pc, b] using h7 g a b⟩,
      .loadYes s h h2, by simp [at_pc, h]⟩
  · have hw : wake s = { s with canceled := fun c => if c = s.cancel then true else s.canceled c }.at 1 .writeCtx := by
      simp [wake, h]
    rw [hw]
    exact ⟨⟨by simpa [at_pc] using h1, h2, by simpa [St.at, Ne.symm h5] using h3, h4, h5, by simp [at_pc],
      fun g a b => by simpa [at_pc, b] using h7 g a b⟩, .callCancel s h, by simp [at_pc, h]⟩
  · have hw : wake s = { s with ctx := s.next, next := s.next + 1 }.at 1 (.writeCancel s.next) := by simp [wake, h]
    rw [hw]
    exact ⟨⟨by simpa [at_pc] using h1, h2, h3, Nat.lt_succ_of_lt h4, h5, by simp [at_pc]; omega,
      fun g a b => by simpa [at_pc, b] using h7 g a b⟩, .writeCtx s h, by simp [at_pc, h]⟩
  · have hw : wake s = { s with cancel := c }.at 1 (.wakeRet true) := by simp [wake, h]
    rw [hw]
    exact ⟨⟨by simpa [at_pc] using h1, h2, h3, h4, hc, by simp [at_pc, Pc.free],
      fun g a b => by simpa [at_pc, b] using h7 g a b⟩, .writeCancel s c h, by simp [at_pc, h]⟩

/-- Five steps of goroutine 1 bring it to a call of `Wakeup`. -/
theorem lost_load {s : St} (l : Lost s) : ∃ d, (wake^[d] s).pc 1 = .load := by
  have h0 : ∀ {s : St}, Lost s → (s.pc 1).free = true → (wake s).pc 1 = .load := by
    intro s l h
    unfold wake
    cases hp : s.pc 1 <;> simp_all [Pc.free, at_pc]
  have h1 : ∀ {s : St}, Lost s → (∃ c, s.pc 1 = .writeCancel c) → (wake^[2] s).pc 1 = .load := by
    rintro s l ⟨c, h⟩
    exact h0 (lost_step l).1 (by simp [wake, h, at_pc, Pc.free])
  have h2 : ∀ {s : St}, Lost s → s.pc 1 = .writeCtx → (wake^[3] s).pc 1 = .load := by
    intro s l h
    exact h1 (lost_step l).1 ⟨s.next, by simp [wake, h, at_pc]⟩
  rcases l.mine with h | h | h | h | ⟨c, hc, h⟩
  · exact ⟨1, h0 l h⟩
  · exact ⟨0, h⟩
  · exact ⟨4, h2 (lost_step l).1 (by simp [wake, h, at_pc])⟩
  · exact ⟨3, h2 l h⟩
  · exact ⟨2, h1 l ⟨c, h⟩⟩

theorem lost_reach : ∃ s, Reach s ∧ Lost s := by
  have r := Reach.step (.step (.step .init (.callSleep (g := 0) _ true rfl)) (.casOk (g := 0) _ true rfl rfl))
    (.readCtx (g := 0) _ true rfl)
  have r := Reach.step (.step (.step (.step r (.callWakeup (g := 1) _ rfl)) (.callWakeup (g := 2) _ rfl))
    (.loadYes (g := 1) _ rfl rfl)) (.loadYes (g := 2) _ rfl rfl)
  have r := Reach.step (.step r (.callCancel (g := 1) _ rfl)) (.callCancel (g := 2) _ rfl)
  have r := Reach.step (.step (.step (.step r (.writeCtx (g := 1) _ rfl)) (.writeCtx (g := 2) _ rfl))
    (.writeCancel (g := 2) _ 2 rfl)) (.writeCancel (g := 1) _ 1 rfl)
  have r := Reach.step (.step r (.done (g := 0) _ 0 true rfl rfl)) (.release (g := 0) _ rfl)
  have r := Reach.step (.step (.step r (.callSleep (g := 0) _ true rfl)) (.casOk (g := 0) _ true rfl rfl))
    (.readCtx (g := 0) _ true rfl)
  refine ⟨_, r, ⟨rfl, rfl, rfl, by decide, by decide, Or.inl rfl, ?_⟩⟩
  intro g h0 h1
  by_cases h2 : g = 2
  · subst h2; rfl
  · simp [St.at, init, h0, h1, h2, Pc.free]

/-- **C129 is false of the code**: two calls of `Wakeup` that once overlapped leave a sleeper that no
later `Wakeup` wakes. -/
theorem C129_refuted : ¬ C129_full := by
  intro H
  obtain ⟨s, r, l⟩ := lost_reach
  have ls : ∀ n, Lost (wake^[n] s) := by
    intro n
    induction n with
    | zero => exact l
    | succ n ih => rw [Function.iterate_succ_apply']; exact (lost_step ih).1
  obtain ⟨σ, N, e, hσ⟩ := prepend r (fun n => wake^[n] s) rfl (fun n => .inl ⟨1, by
    simp only [Function.iterate_succ_apply']; exact (lost_step (ls n)).2.1⟩)
  have late : ∀ m, N ≤ m → Lost (σ m) ∧ (σ (m + 1)).pc 1 ≠ (σ m).pc 1 := by
    intro m hm
    have e1 := hσ (m - N)
    have e2 := hσ (m - N + 1)
    rw [show N + (m - N) = m by omega] at e1
    rw [show N + (m - N + 1) = m + 1 by omega, Function.iterate_succ_apply'] at e2
    rw [e1, e2]
    exact ⟨ls _, (lost_step (ls _)).2.2⟩
  have fair : Fair σ := by
    intro g n hn
    have hN := hn (max n N) (by omega)
    obtain ⟨lm, hne⟩ := late (max n N) (by omega)
    by_cases h0 : g = 0
    · subst h0
      exact absurd hN.2 (stuck lm.sleeper lm.dead)
    · by_cases h1 : g = 1
      · subst h1; exact ⟨max n N, by omega, hne⟩
      · rw [lm.rest g h0 h1] at hN; cases hN.1
  have keeps : KeepsWaking 1 σ := by
    intro n
    obtain ⟨d, hd⟩ := lost_load (ls n)
    refine ⟨N + (d + n), by omega, ?_⟩
    rw [hσ, Function.iterate_add_apply]
    exact hd
  obtain ⟨m, b, hm, hb⟩ := H σ e fair 1 keeps 0 N (Or.inr (Or.inr ⟨2, (late N (Nat.le_refl _)).1.sleeper⟩))
  rw [(late m hm).1.sleeper] at hb
  cases hb


theorem at_at (s : St) (g : Nat) (p q : Pc) : (s.at g p).at g q = s.at g q := by
  simp only [St.at]
  congr 1
  funext h
  split <;> simp_all

/-- Non-vacuity: a fair execution in which goroutine 1 calls `Wakeup` for ever, nobody else does, and
goroutine 0 sleeps at some moment. -/
theorem one_waker : ∃ σ n, Exec σ ∧ Fair σ ∧ KeepsWaking 1 σ ∧ OnlyWaker 1 σ ∧ InSleep true ((σ n).pc 0) := by
  have r : ∃ s, Reach1 1 s ∧ s.pc 0 = .wait 0 true ∧ (∀ h, h ≠ 0 → s.pc h = .idle) ∧ s.slept = true ∧ s.cancel = 0 :=
    ⟨_, .step (.step (.step .init (.callSleep (g := 0) _ true rfl) (by simp [at_pc]))
      (.casOk (g := 0) _ true rfl rfl) (by simp [at_pc])) (.readCtx (g := 0) _ true rfl) (by simp [at_pc]), rfl,
      fun h hne => by simp [at_pc, hne, init], rfl, rfl⟩
  obtain ⟨s0, r, h0, hi, hsl, hca⟩ := r
  -- the rest: woken, back, and then calls of `Wakeup` that find nobody
  let s2 := s0.at 1 .callCancel
  let s3 := { s2 with canceled := fun c => if c = s2.cancel then true else s2.canceled c }.at 1 .writeCtx
  let s4 := { s3 with ctx := s3.next, next := s3.next + 1 }.at 1 (.writeCancel s3.next)
  let s5 := { s4 with cancel := s3.next }.at 1 (.wakeRet true)
  let s6 := s5.at 0 .release
  let s7 := { s6 with slept := false }.at 0 (.sleepRet true)
  let τ : Nat → St := fun n => match n with
    | 0 => s0 | 1 => s0.at 1 .load | 2 => s2 | 3 => s3 | 4 => s4 | 5 => s5 | 6 => s6 | 7 => s7
    | n + 8 => s7.at 1 (if n % 2 = 0 then .load else .wakeRet false)
  have hτ : ∀ n, (∃ g, Step g (τ n) (τ (n + 1))) ∨ τ (n + 1) = τ n := by
    intro n
    left
    match n with
    | 0 => exact ⟨1, .callWakeup _ (by rw [show τ 0 = s0 from rfl, hi 1 (by decide)]; rfl)⟩
    | 1 =>
      refine ⟨1, ?_⟩
      have : Step 1 (s0.at 1 .load) ((s0.at 1 .load).at 1 .callCancel) := .loadYes _ (by simp [at_pc]) hsl
      rwa [at_at] at this
    | 2 => exact ⟨1, .callCancel s2 (by simp [s2, at_pc])⟩
    | 3 => exact ⟨1, .writeCtx s3 (by simp [s3, at_pc])⟩
    | 4 => exact ⟨1, .writeCancel s4 s3.next (by simp [s4, at_pc])⟩
    | 5 => exact ⟨0, .done s5 0 true (by simp [s5, s4, s3, s2, at_pc, h0]) (by simp [s5, s4, s3, s2, St.at, hca])⟩
    | 6 => exact ⟨0, .release s6 (by simp [s6, at_pc])⟩
    | 7 => exact ⟨1, .callWakeup s7 (by simp [s7, s6, s5, at_pc, Pc.free])⟩
    | n + 8 =>
      refine ⟨1, ?_⟩
      by_cases hn : n % 2 = 0
      · have e1 : τ (n + 8) = s7.at 1 .load := by simp only [τ, hn, if_true]
        have e2 : τ (n + 8 + 1) = s7.at 1 (.wakeRet false) := by
          show s7.at 1 (if (n + 1) % 2 = 0 then .load else .wakeRet false) = _
          rw [if_neg (by omega)]
        rw [e1, e2]
        have : Step 1 (s7.at 1 .load) ((s7.at 1 .load).at 1 (.wakeRet false)) := .loadNo _ (by simp [at_pc]) rfl
        rwa [at_at] at this
      · have e1 : τ (n + 8) = s7.at 1 (.wakeRet false) := by simp only [τ, hn, if_false]
        have e2 : τ (n + 8 + 1) = s7.at 1 .load := by
          show s7.at 1 (if (n + 1) % 2 = 0 then .load else .wakeRet false) = _
          rw [if_pos (by omega)]
        rw [e1, e2]
        have : Step 1 (s7.at 1 (.wakeRet false)) ((s7.at 1 (.wakeRet false)).at 1 .load) :=
          .callWakeup _ (by simp [at_pc, Pc.free])
        rwa [at_at] at this
  have hrest : ∀ n g, g ≠ 1 → (τ n).pc g ≠ .load ∧ (8 ≤ n → ((τ n).pc g).free = true) := by
    intro n g hg
    match n with
    | 0 | 1 | 2 | 3 | 4 | 5 | 6 | 7 =>
      by_cases hz : g = 0
      · subst hz; simp [τ, s7, s6, s5, s4, s3, s2, at_pc, h0]
      · simp [τ, s7, s6, s5, s4, s3, s2, at_pc, hi g hz, hg, hz]
    | n + 8 =>
      by_cases hz : g = 0
      · subst hz; simp [τ, s7, s6, s5, s4, s3, s2, at_pc, Pc.free]
      · simp [τ, s7, s6, s5, s4, s3, s2, at_pc, hi g hz, hg, hz, Pc.free]
  have hone : ∀ n, (τ (n + 8)).pc 1 = if n % 2 = 0 then .load else .wakeRet false := by
    intro n; simp [τ, at_pc]
  obtain ⟨σ, N, e, o, hσ⟩ := prepend1 r τ rfl hτ (fun n g hl => by
    by_contra hg
    exact (hrest n g hg).1 hl)
  refine ⟨σ, N, e, ?_, ?_, o, ?_⟩
  · intro g n hn
    obtain ⟨hf, _⟩ := hn (N + (n + 8)) (by omega)
    rw [hσ] at hf
    by_cases hg : g = 1
    · subst hg
      refine ⟨N + (n + 8), by omega, ?_⟩
      rw [hσ, show N + (n + 8) + 1 = N + (n + 1 + 8) by omega, hσ, hone, hone]
      by_cases h2 : n % 2 = 0
      · rw [if_pos h2, if_neg (by omega)]; simp
      · rw [if_neg h2, if_pos (by omega)]; simp
    · rw [(hrest (n + 8) g hg).2 (by omega)] at hf; cases hf
  · intro n
    refine ⟨N + (2 * n + 8), by omega, ?_⟩
    rw [hσ, hone, if_pos (by omega)]
  · have := hσ 0
    rw [Nat.add_zero] at this
    rw [this]
    exact Or.inr (Or.inr ⟨0, h0⟩)

end Verif.SleepFair
