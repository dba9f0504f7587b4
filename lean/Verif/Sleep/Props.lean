import Verif.Sleep.Lemmas
/-!
# Properties C41-C43: the sleeper
-/
namespace Verif.Sleep
open Verif.Go

/-! ## C41 -/

/-- **C41** In every reachable state at most one call is sleeping. -/
theorem C41_one_sleeper {s : St} (r : Reach s) {g h : Nat} (hg : (s.pc g).sleeping = true) (hh : (s.pc h).sleeping = true) :
    g = h := (inv_reach r).one g h hg hh

/-- **C41** A call made while another sleeps can proceed, and all it can do is return false at once,
leaving the sleeper as it was. -/
theorem C41_busy {s : St} (r : Reach s) {g h : Nat} {f : Bool} (hg : (s.pc g).sleeping = true) (hh : s.pc h = .tryCas f) :
    (∃ s', Step h s s') ∧ ∀ s', Step h s s' → s' = s.at h (.sleepRet false) := by
  have hs := (inv_reach r).slept.2 ⟨g, hg⟩
  refine ⟨⟨_, .casFail s f hh hs⟩, fun s' st => ?_⟩
  cases st <;> simp_all [Pc.free]

/-- **C41** With no call sleeping a new call goes to sleep: the sleeper is usable again after every
return. -/
theorem C41_reusable {s : St} (r : Reach s) {h : Nat} {f : Bool} (hn : ∀ g, (s.pc g).sleeping = false)
    (hh : s.pc h = .tryCas f) : (∃ s', Step h s s') ∧ ∀ s', Step h s s' → s'.pc h = .readCtx f := by
  have hs : s.slept = false := by
    by_contra hc
    obtain ⟨g, hg⟩ := (inv_reach r).slept.1 (by simpa using hc)
    simp [hn g] at hg
  refine ⟨⟨_, .casOk s f hh hs⟩, fun s' st => ?_⟩
  cases st <;> simp_all [Pc.free, at_pc]

/-- **C41** A call returns true exactly when it slept, and when it has returned nobody sleeps. -/
theorem C41_return {s s' : St} (r : Reach s) {g : Nat} {b : Bool} (st : Step g s s') (hret : s'.pc g = .sleepRet b) :
    (b = true ↔ (s.pc g).sleeping = true) ∧ (b = true → ∀ h, (s'.pc h).sleeping = false) := by
  have i := inv_reach r
  obtain ⟨i1, i2⟩ := i
  cases st <;> simp only [at_pc, St.at, if_true] at hret ⊢ <;> grind [Pc.sleeping, free_not_sleeping]

/-- Non-vacuity: a state where goroutine 0 sleeps and goroutine 1 tries to. -/
example : ∃ s, Reach s ∧ (s.pc 0).sleeping = true ∧ s.pc 1 = .tryCas false :=
  ⟨_, .step (.step (.step (.step .init (.callSleep (g := 0) _ true rfl)) (.casOk (g := 0) _ true rfl rfl))
    (.readCtx (g := 0) _ true rfl)) (.callSleep (g := 1) _ false rfl), rfl, rfl⟩

/-! ## C42 -/

theorem stuck {s : St} {g c : Nat} (h : s.pc g = .wait c true) (hc : s.canceled c = false) : ¬ ∃ s', Step g s s' := by
  rintro ⟨s', st⟩
  cases st <;> simp_all [Pc.free]

/-- **C42** is false of the code: `Wakeup` is called while a `SleepForever` is about to wait, returns true,
and the sleeper waits for the new context: it is not woken, it cannot move. -/
theorem C42_refuted : ∃ s s', Reach s ∧ s.pc 0 = .readCtx true ∧ s.pc 1 = .load ∧ Steps1 1 s s' ∧
    s'.pc 1 = .wakeRet true ∧ s'.pc 0 = .wait s'.ctx true ∧ ¬ ∃ s'', Step 0 s' s'' := by
  refine ⟨_, _, .step (.step (.step .init (.callSleep (g := 0) _ true rfl)) (.casOk (g := 0) _ true rfl rfl))
    (.callWakeup (g := 1) _ rfl), rfl, rfl,
    .step (.step (.step (.step (.step (.refl _) (.loadYes (g := 1) _ rfl rfl) (by simp)) (.callCancel (g := 1) _ rfl) (by simp))
      (.writeCtx (g := 1) _ rfl) (by simp)) (.writeCancel (g := 1) _ 1 rfl) (by simp)) (.readCtx (g := 0) _ true rfl)
      (by simp [at_pc]), rfl, rfl, stuck (c := 1) rfl rfl⟩

/-- **C42** is false also for a sleeper already waiting, once two calls of `Wakeup` have overlapped: the
fields `ctx` and `cancel` then belong to different contexts, and the next `Wakeup` cancels the wrong one. -/
theorem C42_refuted_overlap : ∃ s s', Reach s ∧ s.pc 0 = .wait s.ctx true ∧ s.pc 1 = .load ∧
    (∀ g, g ≠ 0 → g ≠ 1 → (s.pc g).free = true) ∧ Steps1 1 s s' ∧
    s'.pc 1 = .wakeRet true ∧ s'.pc 0 = s.pc 0 ∧ ¬ ∃ s'', Step 0 s' s'' := by
  -- goroutine 0 sleeps once, woken by 1 and 2 together, then sleeps again
  have r := Reach.step (.step (.step .init (.callSleep (g := 0) _ true rfl)) (.casOk (g := 0) _ true rfl rfl))
    (.readCtx (g := 0) _ true rfl)
  have r := Reach.step (.step (.step (.step r (.callWakeup (g := 1) _ rfl)) (.callWakeup (g := 2) _ rfl))
    (.loadYes (g := 1) _ rfl rfl)) (.loadYes (g := 2) _ rfl rfl)
  have r := Reach.step (.step r (.callCancel (g := 1) _ rfl)) (.callCancel (g := 2) _ rfl)
  have r := Reach.step (.step (.step (.step r (.writeCtx (g := 1) _ rfl)) (.writeCtx (g := 2) _ rfl))
    (.writeCancel (g := 2) _ 2 rfl)) (.writeCancel (g := 1) _ 1 rfl)
  have r := Reach.step (.step r (.done (g := 0) _ 0 true rfl rfl)) (.release (g := 0) _ rfl)
  have r := Reach.step (.step (.step r (.callSleep (g := 0) _ true rfl)) (.casOk (g := 0) _ true rfl rfl))
    (.readCtx (g := 0) _ true rfl)
  have r := Reach.step r (.callWakeup (g := 1) _ rfl)
  refine ⟨_, _, r, rfl, rfl, ?_,
    .step (.step (.step (.step (.refl _) (.loadYes (g := 1) _ rfl rfl) (by simp)) (.callCancel (g := 1) _ rfl) (by simp))
      (.writeCtx (g := 1) _ rfl) (by simp)) (.writeCancel (g := 1) _ 3 rfl) (by simp), rfl, rfl, ?_⟩
  · intro g h0 h1
    simp only [at_pc, h0, h1, if_false, init]
    by_cases h2 : g = 2 <;> simp [h2, Pc.free]
  · exact stuck (c := 2) rfl rfl

/-- **C42** (partial: the full statement is for sleepers about to wait too and for any number of
concurrent `Wakeup` calls; both are false, see above.) With one goroutine calling `Wakeup`, a call
waiting when `Wakeup` starts is woken when `Wakeup` has returned true: the channel it waits on is ready
and its next step returns. -/
theorem C42_partial {w : Nat} {s s' : St} {g c : Nat} {f : Bool} (r : Reach1 w s) (hg : s.pc g = .wait c f)
    (hw : s.pc w = .load) (st : Steps1 w s s') (ht : s'.pc w = .wakeRet true) :
    s'.canceled c = true ∧ (s'.pc g = .wait c f → Step g s' (s'.at g .release)) := by
  have i := inv1_reach r
  have key : s'.canceled c = true := by
    rcases i.waits g c f hg with hc | hc
    · rcases (cancels i hw hc st).2 with h | h
      · exact h
      · exact absurd ht h.2.2.2
    · clear ht
      induction st with
      | refl => exact hc
      | step _ st _ ih => exact canceled_step st ih
  exact ⟨key, fun h => .done s' c f h key⟩

example : ∃ s, Reach1 1 s ∧ s.pc 0 = .wait 0 true ∧ s.pc 1 = .load :=
  ⟨_, .step (.step (.step (.step .init (.callSleep (g := 0) _ true rfl) (by simp [at_pc])) (.casOk (g := 0) _ true rfl rfl)
    (by simp [at_pc])) (.readCtx (g := 0) _ true rfl) (by simp [at_pc])) (.callWakeup (g := 1) _ rfl) (by simp), rfl, rfl⟩

/-- **C42** `Wakeup` with no sleeper returns false and changes nothing. -/
theorem C42_no_sleeper {s : St} (r : Reach s) {g : Nat} (hn : ∀ h, (s.pc h).sleeping = false) (hg : s.pc g = .load) :
    (∃ s', Step g s s') ∧ ∀ s', Step g s s' → s' = s.at g (.wakeRet false) := by
  have hs : s.slept = false := by
    by_contra hc
    obtain ⟨g, hg⟩ := (inv_reach r).slept.1 (by simpa using hc)
    simp [hn g] at hg
  refine ⟨⟨_, .loadNo s hg hs⟩, fun s' st => ?_⟩
  cases st <;> simp_all [Pc.free]

/-- **C42** `Wakeup` with a sleeper does not return false: it goes on to cancel. -/
theorem C42_sleeper_seen {s : St} (r : Reach s) {g h : Nat} (hh : (s.pc h).sleeping = true) (hg : s.pc g = .load) :
    (∃ s', Step g s s') ∧ ∀ s', Step g s s' → s'.pc g = .callCancel := by
  have hs := (inv_reach r).slept.2 ⟨h, hh⟩
  refine ⟨⟨_, .loadYes s hg hs⟩, fun s' st => ?_⟩
  cases st <;> simp_all [Pc.free, at_pc]

/-- Executions where nobody calls `Wakeup`. -/
inductive Reach0 : St → Prop where
  | init : Reach0 init
  | step {s s' : St} {g : Nat} : Reach0 s → Step g s s' → s'.pc g ≠ .load → Reach0 s'

/-- **C42** Nobody is woken without `Wakeup`: then a `SleepForever` that waits, waits for ever. -/
theorem C42_no_spurious {s : St} (r : Reach0 s) {g c : Nat} (hg : s.pc g = .wait c true) : ¬ ∃ s', Step g s s' := by
  have i : (∀ c, s.canceled c = false) ∧ ∀ g, (s.pc g).waking = false := by
    clear hg
    induction r with
    | init => simp [init, Pc.waking]
    | step _ st hl ih =>
      obtain ⟨i1, i2⟩ := ih
      cases st <;> (try simp only [at_pc, St.at] at hl ⊢) <;> grind [Pc.waking]
  exact stuck hg (i.1 c)

/-! ## C43 -/

/-- **C43** is false of the code for every duration except zero: `d` nanoseconds are multiplied by
`time.Second`, with wrap-around. -/
theorem C43_refuted {d : Int} (hd : InInt64 d) : timerOf d = d ↔ d = 0 := by
  constructor
  · intro h
    unfold timerOf wrap64 at h
    unfold InInt64 at hd
    obtain ⟨k, hk⟩ : ∃ k, d * 999999999 = 2 ^ 64 * k := by
      have := Int.emod_add_mul_ediv (d * 1000000000 + 2 ^ 63) (2 ^ 64)
      generalize (d * 1000000000 + 2 ^ 63) / 2 ^ 64 = q at this
      generalize (d * 1000000000 + 2 ^ 63) % 2 ^ 64 = r at this h
      exact ⟨q, by linarith⟩
    -- 999999999 has an inverse modulo 2^64
    obtain ⟨q, h2⟩ : ∃ q, d = 2 ^ 64 * q := ⟨(9340617356365346303 * k - 506355881 * d), by linarith⟩
    clear h hk
    omega
  · rintro rfl; decide

example : timerOf 1000000000 = 1000000000000000000 := by decide  -- `SleepFor(time.Second)` sleeps 31 years
example : timerOf 10000000000 < 0 := by decide                      -- `SleepFor(10*time.Second)` returns at once

/-- **C43** (partial: the full statement is that the timer is armed with `d`.) What the code does: read
as a number of seconds, `d` is the time slept, if that fits. -/
theorem C43_partial {d : Int} (h : -9223372036 ≤ d ∧ d ≤ 9223372036) : timerOf d = d * 1000000000 :=
  wrap64_of_in (by unfold InInt64; omega)

end Verif.Sleep
