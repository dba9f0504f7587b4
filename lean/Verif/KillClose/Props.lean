import Verif.KillClose.Lemmas
/-!
# C157: a program that closes its manager on a kill signal
-/
namespace Verif.KillClose

variable {s s' : St} {σ : Nat → St}

/-- **C157, what does hold** (partial): a closer whose `Append` returned before the signal was received is closed when the channel is
closed, and closed exactly once if there was one signal. Missing: closers registered later, and further signals. -/
theorem C157_partial (r : Reach s) (q : Quiet s) (j : Nat) (h : s.add j = .returned) (l : Later s s') (hc : s'.cClosed = true) :
    1 ≤ s'.closes j ∧ (s'.sent ≤ 1 → s'.closes j = 1) := by
  have i := reach_inv r
  have q' : s.taken = 0 := q
  have f : First s j := ⟨(i.mem j).2 h, fun g => (by omega), fun g => (by omega), fun g => (by omega), fun g => (by omega)⟩
  obtain ⟨i', f'⟩ := later_first i f l
  have h1 := i'.pos hc
  by_cases e : s'.taken = 1
  · have := f'.done e (.inr (i'.closed hc e))
    exact ⟨by omega, fun _ => this⟩
  · refine ⟨f'.more (by omega), fun g => ?_⟩
    have := i'.sent
    split at this <;> omega

/-- **C157, not without a signal**: before a signal comes nothing is closed, neither closers nor the channel. -/
theorem C157_no_signal (r : Reach s) (h : s.sent = 0) (j : Nat) : s.closes j = 0 ∧ s.cClosed = false := by
  have i := reach_inv r
  have h0 : s.taken = 0 := by have := i.sent; split at this <;> omega
  refine ⟨i.quiet h0 j, ?_⟩
  cases hc : s.cClosed with
  | false => rfl
  | true => have := i.pos hc; omega

/-- **C157, one signal**: nothing is closed twice and the program does not crash. -/
theorem C157_one_signal (r : Reach s) (h : s.sent ≤ 1) (j : Nat) : s.closes j ≤ 1 ∧ s.crashed = false := by
  have i := reach_inv r
  have h0 : s.taken ≤ 1 := by have := i.sent; split at this <;> omega
  refine ⟨(reach_once r j).all h0, ?_⟩
  cases hc : s.crashed with
  | false => rfl
  | true => have := i.nocrash hc; omega

/-- **C157, the channel is closed in the end**: in a fair execution in which a signal comes, whatever is registered meanwhile. -/
theorem C157_live (e : Exec σ) (f : Fair σ) (n : Nat) (h : (σ n).pending = true) : ∃ m, (σ m).cClosed = true := by
  by_cases hc : ∀ m, n ≤ m → (σ m).crashed = false
  · obtain ⟨k, _, h2, h3⟩ := to_done e f hc (.inr h)
    have := handler_pc h3
    rw [h2] at this
    cases hk : (σ k).cClosed with
    | true => exact ⟨k, hk⟩
    | false => exact ⟨k + 1, this hk⟩
  · simp only [not_forall] at hc
    obtain ⟨m, _, hm⟩ := hc
    exact ⟨m, crash_closed (reach_inv (e.reach m)) (by simpa using hm)⟩

/-- **C157, one signal too many**: in a fair execution, a signal that comes after the channel was closed ends the program with a
panic, whatever the rest of the program is doing. -/
theorem C157_second_signal (e : Exec σ) (f : Fair σ) (n : Nat) (hc : (σ n).cClosed = true) (h : (σ n).pending = true) :
    ∃ m, (σ m).crashed = true := by
  by_contra hno
  have hn : ∀ m, n ≤ m → (σ m).crashed = false := fun m _ => by
    cases hm : (σ m).crashed with
    | false => rfl
    | true => exact absurd ⟨m, hm⟩ hno
  obtain ⟨k, h1, h2, h3⟩ := to_done e f hn (.inr h)
  have hck : (σ k).cClosed = true := by
    clear h2 h3
    induction h1 with
    | refl => exact hc
    | @step m hm ih =>
      rcases e.next m with ⟨w, _, g⟩ | g
      · exact closed_stays g ih
      · rw [g]; exact ih
  have : (σ (k + 1)).crashed = true := by
    generalize σ (k + 1) = t at h3
    generalize hw : Who.handler = w at h3
    cases h3 with
    | call _ j a => cases hw
    | append _ j a b => cases hw
    | signal _ => cases hw
    | take _ a b => rw [h2] at a; cases a
    | log _ a => rw [h2] at a; cases a
    | enter _ a b => rw [h2] at a; cases a
    | closeOne _ j rest a => rw [h2] at a; cases a
    | leave _ a => rw [h2] at a; cases a
    | closeC _ a b => rw [hck] at b; cases b
    | crash _ a b => rfl
  exact hno ⟨_, this⟩

/-! ## The claim is false -/

theorem Later.one {w : Who} {a b c : St} (l : Later a b) (hc : b.crashed = false) (m : Move w b c) : Later a c := l.tail ⟨w, hc, m⟩

/-- A closer and one signal, up to the end of the round. -/
def afterOne : St :=
  { list := [0], held := false, add := fun i => if i = 0 then .returned else .idle, pending := false, sent := 1, taken := 1, pc := .done,
    cClosed := false, closes := fun i => if i = 0 then 1 else 0, crashed := false }

theorem before_signal : Reach { init with list := [0], add := fun i => if i = 0 then .returned else .idle } := by
  have r1 : Reach _ := Later.one .refl rfl (.call init 0 rfl)
  have r2 := Later.one r1 rfl (.append _ 0 rfl rfl)
  have e : (fun i : Nat => if i = 0 then Add.returned else if i = 0 then .called else init.add i) = fun i => if i = 0 then .returned else .idle := by
    funext i; by_cases h : i = 0 <;> simp [h, init]
  simp only [e] at r2
  exact r2

theorem to_afterOne : Later { init with list := [0], add := fun i => if i = 0 then .returned else .idle } afterOne := by
  have r1 := Later.one .refl rfl (.signal { init with list := [0], add := fun i => if i = 0 then .returned else .idle })
  have r2 := Later.one r1 rfl (.take _ rfl rfl)
  have r3 := Later.one r2 rfl (.log _ rfl)
  have r4 := Later.one r3 rfl (.enter _ rfl rfl)
  have r5 := Later.one r4 rfl (.closeOne _ 0 [] rfl)
  have r6 := Later.one r5 rfl (.leave _ rfl)
  exact r6

theorem reach_afterOne : Reach afterOne := before_signal.trans to_afterOne

/-- The closer registered before the signal is closed once. -/
example : ∃ s, Reach s ∧ s.cClosed = true ∧ s.sent = 1 ∧ 1 ≤ s.closes 0 ∧ (s.sent ≤ 1 → s.closes 0 = 1) := by
  have r7 := Later.one to_afterOne rfl (.closeC _ rfl rfl)
  exact ⟨_, before_signal.trans r7, rfl, rfl, C157_partial before_signal rfl 0 rfl r7 rfl⟩

/-- **C157 is false**: a closer registered while the handler is at work is never closed, and the channel is. -/
theorem C157_late : ∃ s, Reach s ∧ s.sent = 1 ∧ s.cClosed = true ∧ s.add 1 = .returned ∧ s.closes 1 = 0 := by
  have r1 := Later.one reach_afterOne rfl (.call _ 1 rfl)
  have r2 := Later.one r1 rfl (.append _ 1 rfl rfl)
  have r3 := Later.one r2 rfl (.closeC _ rfl rfl)
  exact ⟨_, r3, rfl, rfl, rfl, rfl⟩

/-- **C157 is false**: a second signal closes everything a second time and then ends the program with a panic. -/
theorem C157_twice : ∃ s, Reach s ∧ s.sent = 2 ∧ s.add 0 = .returned ∧ s.closes 0 = 2 ∧ s.crashed = true := by
  have r1 := Later.one reach_afterOne rfl (.closeC _ rfl rfl)
  have r2 := Later.one r1 rfl (.signal _)
  have r3 := Later.one r2 rfl (.take _ rfl rfl)
  have r4 := Later.one r3 rfl (.log _ rfl)
  have r5 := Later.one r4 rfl (.enter _ rfl rfl)
  have r6 := Later.one r5 rfl (.closeOne _ 0 [] rfl)
  have r7 := Later.one r6 rfl (.leave _ rfl)
  have r8 := Later.one r7 rfl (.crash _ rfl rfl)
  exact ⟨_, r8, rfl, rfl, rfl, rfl⟩

theorem C157_refuted : ¬ C157_full := fun h => by
  obtain ⟨s, r, _, hc, ha, h0⟩ := C157_late
  have := h s r hc 1 ha
  omega

/-! ## A fair execution -/

/-- One closer, two signals. -/
def twoSignals : Nat → St
  | 0 => init
  | 1 => { init with pending := true, sent := 1 }
  | 2 => { init with sent := 1, taken := 1, pc := .logging }
  | 3 => { init with sent := 1, taken := 1, pc := .enter }
  | 4 => { init with sent := 1, taken := 1, held := true, pc := .closing [] }
  | 5 => { init with sent := 1, taken := 1, pc := .done }
  | 6 => { init with sent := 1, taken := 1, cClosed := true }
  | 7 => { init with sent := 2, taken := 1, cClosed := true, pending := true }
  | 8 => { init with sent := 2, taken := 2, cClosed := true, pc := .logging }
  | 9 => { init with sent := 2, taken := 2, cClosed := true, pc := .enter }
  | 10 => { init with sent := 2, taken := 2, cClosed := true, held := true, pc := .closing [] }
  | 11 => { init with sent := 2, taken := 2, cClosed := true, pc := .done }
  | _ + 12 => { init with sent := 2, taken := 2, cClosed := true, pc := .done, crashed := true }

theorem twoSignals_exec : Exec twoSignals := by
  refine ⟨rfl, fun n => ?_⟩
  match n with
  | 0 => exact .inl ⟨_, rfl, .signal _⟩
  | 1 => exact .inl ⟨_, rfl, .take _ rfl rfl⟩
  | 2 => exact .inl ⟨_, rfl, .log _ rfl⟩
  | 3 => exact .inl ⟨_, rfl, .enter _ rfl rfl⟩
  | 4 => exact .inl ⟨_, rfl, .leave _ rfl⟩
  | 5 => exact .inl ⟨_, rfl, .closeC _ rfl rfl⟩
  | 6 => exact .inl ⟨_, rfl, .signal _⟩
  | 7 => exact .inl ⟨_, rfl, .take _ rfl rfl⟩
  | 8 => exact .inl ⟨_, rfl, .log _ rfl⟩
  | 9 => exact .inl ⟨_, rfl, .enter _ rfl rfl⟩
  | 10 => exact .inl ⟨_, rfl, .leave _ rfl⟩
  | 11 => exact .inl ⟨_, rfl, .crash _ rfl rfl⟩
  | k + 12 => exact .inr rfl

theorem twoSignals_fair : Fair twoSignals := fun n h => by
  obtain ⟨s', hc, _⟩ := h (n + 12) (by omega)
  cases hc

example : ∃ m, (twoSignals m).cClosed = true := C157_live twoSignals_exec twoSignals_fair 1 rfl

example : ∃ m, (twoSignals m).crashed = true := C157_second_signal twoSignals_exec twoSignals_fair 7 rfl rfl

/-- With one signal. -/
example : (twoSignals 6).closes 0 ≤ 1 ∧ (twoSignals 6).crashed = false := C157_one_signal (twoSignals_exec.reach 6) (by decide) 0

/-- Without. -/
example : (twoSignals 0).closes 0 = 0 ∧ (twoSignals 0).cClosed = false := C157_no_signal (twoSignals_exec.reach 0) rfl 0

end Verif.KillClose
