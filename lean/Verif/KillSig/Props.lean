import Verif.KillSig.Model
/-!
# Property C54: handling kill signals
-/
namespace Verif.KillSig

variable {s s' : St}

structure Inv (s : St) : Prop where
  runs : s.runs + (if s.pc = .handling then 1 else 0) = s.received
  closed : s.closed = true → 1 ≤ s.runs
  open_ : s.closed = false → s.pc = .closing ∧ s.runs = 1 ∨ s.pc ≠ .closing ∧ s.runs = 0
  crash : s.crashed = true → 2 ≤ s.runs ∧ s.pc = .closing
  second : s.closed = true → s.pc = .closing → 2 ≤ s.runs

theorem inv_step (i : Inv s) (st : Step s s') : Inv s' := by
  obtain ⟨i1, i2, i3, i4, i5⟩ := i
  cases st <;> constructor <;> grind

theorem inv_reach (r : Reach s) : Inv s := by
  induction r with
  | init => constructor <;> simp [init]
  | step _ st ih => exact inv_step ih st

/-- **C54** The handler runs once per received signal (the one being handled has not finished). -/
theorem C54_once_per_signal (r : Reach s) : s.runs + (if s.pc = .handling then 1 else 0) = s.received :=
  (inv_reach r).runs

/-- **C54** The channel is closed only after the first run of the handler, and right after it. -/
theorem C54_closed_after_first (r : Reach s) :
    (s.closed = true → 1 ≤ s.runs) ∧ (1 ≤ s.runs → s.pc ≠ .closing → s.closed = true) := by
  have i := inv_reach r
  refine ⟨i.closed, fun h1 h2 => ?_⟩
  by_contra hc
  rcases i.open_ (by simpa using hc) with ⟨g, _⟩ | ⟨_, g⟩
  · exact h2 g
  · omega

/-- **C54** Nothing happens before a signal comes: the first step of all is a signal, and the handler has not run. -/
theorem C54_needs_signal (st : Step init s) : s = { init with full := true } ∧ s.runs = 0 ∧ s.closed = false := by
  cases st with
  | signal h => exact ⟨rfl, rfl, rfl⟩
  | take h h1 h2 => cases h2
  | handle h h1 => cases h1
  | close h h1 h2 => cases h1
  | closeCrash h h1 h2 => cases h1

example : Step init { init with full := true } := .signal init rfl

/-- **C54** After the handler's first run the channel can be closed. -/
theorem C54_can_close (r : Reach s) (h : s.pc = .closing) (h1 : s.runs = 1) : ∃ s', Step s s' ∧ s'.closed = true := by
  have i := inv_reach r
  have hc : s.crashed = false := by
    by_contra hc
    have := (i.crash (by simpa using hc)).1; omega
  have hcl : s.closed = false := by
    by_contra hcl
    have := i.second (by simpa using hcl) h; omega
  exact ⟨_, .close s hc h hcl, rfl⟩

/-- The full statement of C54's last part. -/
def C54_full : Prop := ∀ s, Reach s → s.crashed = false

/-- **C54** (last part, partial) No crash as long as one signal has been handled. Missing: any second
signal, for which it is false. -/
theorem C54_no_crash_partial (r : Reach s) (h : s.runs ≤ 1) : s.crashed = false := by
  by_contra hc
  have := ((inv_reach r).crash (by simpa using hc)).1
  omega

/-- **C54** Worse: after the second handled signal a crash is the only thing the goroutine can do. -/
theorem C54_second_crashes (r : Reach s) (h : 2 ≤ s.runs) (hp : s.pc = .closing) (hc : s.crashed = false) :
    Step s { s with crashed := true } ∧ ∀ s', Step s s' → s'.pc = .closing := by
  have i := inv_reach r
  have hcl : s.closed = true := by
    by_contra hcl
    rcases i.open_ (by simpa using hcl) with ⟨_, g⟩ | ⟨g, _⟩
    · omega
    · exact g hp
  refine ⟨.closeCrash s hc hp hcl, fun s' st => ?_⟩
  cases st with
  | signal h => exact hp
  | take h h1 h2 => simp [hp] at h1
  | handle h h1 => simp [hp] at h1
  | close h h1 h2 => simp [hcl] at h2
  | closeCrash h h1 h2 => exact hp

/-- Two signals, the second handled but for the close. -/
theorem two_signals : Reach { full := false, pc := .closing, received := 2, runs := 2, closed := true, crashed := false } := by
  have r1 := Reach.init.step (.signal _ rfl)
  have r2 := r1.step (.take _ rfl rfl rfl)
  have r3 := r2.step (.handle _ rfl rfl)
  have r4 := r3.step (.close _ rfl rfl rfl)
  have r5 := r4.step (.signal _ rfl)
  have r6 := r5.step (.take _ rfl rfl rfl)
  exact r6.step (.handle _ rfl rfl)

/-- **C54** refuted: the second signal closes the channel again. -/
theorem C54_refuted : ¬ C54_full := fun h => by
  have := h _ (two_signals.step (.closeCrash _ rfl rfl rfl))
  cases this

/-- Non-vacuity of `C54_closed_after_first`, `C54_can_close` and `C54_no_crash_partial`: one signal. -/
example : Reach { full := false, pc := .closing, received := 1, runs := 1, closed := false, crashed := false } :=
  ((Reach.init.step (.signal _ rfl)).step (.take _ rfl rfl rfl)).step (.handle _ rfl rfl)

end Verif.KillSig
