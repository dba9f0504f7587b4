import Verif.DecFair.Starve
/-!
# Four calls, one of which never returns

Size 1. Call 0 takes the slot, and until it goes on call 1 spins, 2^64 - 3 times. The payload of call 0 is then
shown. Call 1 gets the ticket 2^64 - 2, which as it is stored marks the slot as empty; call 2 gets the ticket
2^64 - 1, which as it is stored marks the slot as locked. Call 3 finds the slot locked for ever.
-/
namespace Verif.DecFair
open Verif.Decouple

theorem prepend {α : Type} {size : Nat} {payload : Nat → List α} {s : St α} (r : Reach size payload s) : ∀ τ : Nat → St α, τ 0 = s →
    (∀ n, Step size payload (τ n) (τ (n + 1)) ∨ τ (n + 1) = τ n) → ∃ σ N, Exec size payload σ ∧ ∀ n, σ (N + n) = τ n := by
  induction r with
  | init => intro τ h0 hn; exact ⟨τ, 0, ⟨h0, hn⟩, fun n => by simp⟩
  | @step s s' _ st ih =>
    intro τ h0 hn
    obtain ⟨σ, N, e, hσ⟩ := ih (fun n => match n with | 0 => s | n + 1 => τ n) rfl (fun n => by
      cases n with
      | zero => left; simp only [h0]; exact st
      | succ n => exact hn n)
    refine ⟨σ, N + 1, e, fun n => ?_⟩
    have h1 : σ (N + (n + 1)) = τ n := hσ (n + 1)
    rw [← h1]
    congr 1
    omega

theorem new_back {α : Type} {size : Nat} {payload : Nat → List α} {σ : Nat → St α} {j n m : Nat} (e : Exec size payload σ)
    (h : n ≤ m) (hm : (σ m).wpc j = .new) : (σ n).wpc j = .new := by
  have hr : rank ((σ m).wpc j) ≤ rank ((σ n).wpc j) := by
    clear hm
    induction m, h using Nat.le_induction with
    | base => exact Nat.le_refl _
    | succ m _ ih => exact Nat.le_trans (rank_next e m j) ih
  rw [hm] at hr
  cases hp : (σ n).wpc j with
  | new => rfl
  | _ => rw [hp] at hr; simp [rank] at hr

/-- A call spins on a locked slot `d` times. -/
theorem spin_times {s : St Nat} {j : Nat} (r : Reach 1 one s) (hj : s.wpc j = .add) (hl : s.lock 0 = busyL) :
    ∀ d, ∃ s', Reach 1 one s' ∧ s'.wr = (s.wr + d) % W ∧ s'.wpc = s.wpc ∧ s'.lock = s.lock ∧ s'.len = s.len ∧ s'.rd = s.rd ∧ s'.rpc = s.rpc := by
  have hW : s.wr % W = s.wr := by
    have : s.wr < W := by
      clear hj hl
      induction r with
      | init => decide
      | step _ st ih => cases st <;> first | exact ih | exact Nat.mod_lt _ (by decide)
    exact Nat.mod_eq_of_lt this
  intro d
  induction d with
  | zero => exact ⟨s, r, by rw [Nat.add_zero, hW], rfl, rfl, rfl, rfl, rfl⟩
  | succ d ih =>
    obtain ⟨t, r1, h1, h2, h3, h4, h5, h6⟩ := ih
    have r2 := r1.step (.add t j (by rw [h2, hj]) (by decide))
    have r3 := r2.step (.loadBusy _ j ((t.wr + 1) % W) (by simp [St.at]) (by simp only [St.at, slot1, h3, hl]))
    refine ⟨_, r3, ?_, ?_, h3, h4, h5, h6⟩
    · simp only [St.at, h1]; unfold W; omega
    · funext x
      rw [at_wpc]
      by_cases e : x = j
      · rw [if_pos e, e, hj]
      · rw [if_neg e, at_wpc, if_neg e, h2]

/-- The state in which call 3 is stuck. -/
structure Stuck (s : St Nat) : Prop where
  lock : s.lock 0 = busyL
  rpc : s.rpc = .idle
  done : ∀ j, j < 3 → s.wpc j = .accepted
  new : ∀ j, 3 < j → s.wpc j = .new
  me : s.wpc 3 = .add ∨ ∃ ts, s.wpc 3 = .load ts

/-- Call 1 has spun 2^64 - 3 times. -/
theorem spun : ∃ s, Reach 1 one s ∧ s.wr = W - 3 ∧ (∀ j, s.wpc j = if j = 1 then .add else if j = 0 then .copy 0 else .new) ∧
    s.lock 0 = busyL ∧ s.len = 0 ∧ s.rpc = .idle := by
  have r1 := (Reach.init (size := 1) (payload := one)).step (.call _ 0 rfl (by simp [one]))
  have r2 := r1.step (.add _ 0 (by simp [St.at]) (by decide))
  have r3 := r2.step (.loadEmpty _ 0 0 (by simp only [St.at, init, if_true]; decide) (by simp [St.at, init]))
  have r4 := r3.step (.casOk _ 0 0 (by simp [St.at]) (by simp [St.at, init]))
  have r5 := r4.step (.call _ 1 (by simp [St.at, init]) (by simp [one]))
  obtain ⟨s6, r6, w6, p6, l6, n6, d6, c6⟩ := spin_times r5 (j := 1) (by simp [St.at]) (by simp [St.at, slot1]) (W - 3)
  refine ⟨s6, r6, ?_, fun j => ?_, ?_, n6, c6⟩
  · rw [w6]; simp only [St.at, init]; decide
  · rw [p6]; simp only [St.at, init]; grind
  · rw [l6]; simp [St.at, slot1]

/-- The payload of call 0 has been shown. -/
theorem shown0 : ∃ s, Reach 1 one s ∧ s.wr = W - 3 ∧ (∀ j, s.wpc j = if j = 1 then .add else if j = 0 then .accepted else .new) ∧
    s.lock 0 = emptyL ∧ s.rpc = .idle := by
  obtain ⟨s6, r6, w6, p6, l6, n6, c6⟩ := spun
  have r7 := r6.step (.copy _ 0 0 (by rw [p6]; rfl))
  have r8 := r7.step (.store _ 0 0 (by simp [St.at]))
  have r9 := r8.step (.incr _ 0 (by simp [St.at]))
  have r10 := next_once (by decide) r9 (i := 0) c6 (by simp only [St.at, n6]; decide) (slot1 _) (by simp only [St.at, slot1, if_true]; decide)
  refine ⟨_, r10, w6, fun j => ?_, by simp, rfl⟩
  simp only [St.at, p6]
  by_cases h0 : j = 0
  · simp [h0]
  · simp [h0]

theorem stuck_reach : ∃ s, Reach 1 one s ∧ Stuck s := by
  obtain ⟨s10, r10, w10, p10, l10, c10⟩ := shown0
  have t10 : (s10.wr + 1) % W = emptyL := by rw [w10]; decide
  have r11 := r10.step (.add _ 1 (by rw [p10]; rfl) (by decide))
  rw [t10] at r11
  have r12 := r11.step (.loadEmpty _ 1 emptyL (by simp [St.at]) (by simp [St.at, slot1, l10]))
  have r13 := r12.step (.casOk _ 1 emptyL (by simp [St.at]) (by simp [St.at, slot1, l10]))
  have r14 := r13.step (.copy _ 1 emptyL (by simp [St.at]))
  have r15 := r14.step (.store _ 1 emptyL (by simp [St.at]))
  have r16 := r15.step (.incr _ 1 (by simp [St.at]))
  have r17 := write_once (j := 2) (ts := busyL) (i := 0) (by decide) r16 (by simp [one]) (by simp [St.at, p10]) (by simp only [St.at]; decide)
    (slot1 _) (by simp [St.at, slot1])
  have r18 := r17.step (.call _ 3 (by simp [St.at, p10]) (by simp [one]))
  refine ⟨_, r18, by simp [St.at], c10, fun j hj => ?_, fun j hj => ?_, .inl (by simp [St.at])⟩
  · have : j = 0 ∨ j = 1 ∨ j = 2 := by omega
    rcases this with rfl | rfl | rfl <;> simp [St.at, p10]
  · have h0 : j ≠ 0 := by omega
    have h1 : j ≠ 1 := by omega
    have h2 : j ≠ 2 := by omega
    have h3 : j ≠ 3 := by omega
    simp [St.at, p10, h0, h1, h2, h3]

/-- Call 3 takes a step. -/
def spin3 (s : St Nat) : St Nat :=
  if s.wpc 3 = .add then { s with wr := (s.wr + 1) % W, attempts := s.attempts + 1 }.at 3 (.load ((s.wr + 1) % W)) else s.at 3 .add

theorem stuck_step {s : St Nat} (h : Stuck s) : Step 1 one s (spin3 s) ∧ Stuck (spin3 s) ∧ (spin3 s).wpc 3 ≠ s.wpc 3 := by
  obtain ⟨h1, h2, h3, h4, h5⟩ := h
  have oth : ∀ (a : St Nat) (p : WPc), a.wpc = s.wpc → (∀ j, j < 3 → (a.at 3 p).wpc j = .accepted) ∧ ∀ j, 3 < j → (a.at 3 p).wpc j = .new :=
    fun a p e => ⟨fun j hj => by rw [at_wpc, if_neg (by omega), e]; exact h3 j hj, fun j hj => by rw [at_wpc, if_neg (by omega), e]; exact h4 j hj⟩
  rcases h5 with h5 | ⟨ts, h5⟩
  · have e : spin3 s = { s with wr := (s.wr + 1) % W, attempts := s.attempts + 1 }.at 3 (.load ((s.wr + 1) % W)) := by
      unfold spin3; rw [if_pos h5]
    rw [e]
    refine ⟨.add s 3 h5 (by decide), ⟨h1, h2, (oth _ _ ?_).1, (oth _ _ ?_).2, .inr ⟨_, by rw [at_wpc, if_pos rfl]⟩⟩, ?_⟩
    · rfl
    · rfl
    · rw [at_wpc, if_pos rfl, h5]; simp
  · have e : spin3 s = s.at 3 .add := by unfold spin3; rw [if_neg (by rw [h5]; simp)]
    rw [e]
    refine ⟨.loadBusy s 3 ts h5 (by rw [slot1, h1]), ⟨h1, h2, (oth _ _ rfl).1, (oth _ _ rfl).2, .inl (by rw [at_wpc, if_pos rfl])⟩, ?_⟩
    rw [at_wpc, if_pos rfl, h5]; simp

theorem marks : ∃ σ : Nat → St Nat, Exec 1 one σ ∧ FairWriters 1 one σ ∧ FairReader 1 one σ ∧ (∀ n j, 4 ≤ j → (σ n).wpc j = .new) ∧
    ∃ N, ∀ n, N ≤ n → Inside ((σ n).wpc 3) := by
  obtain ⟨s, r, st⟩ := stuck_reach
  let τ : Nat → St Nat := fun n => Nat.rec s (fun _ t => spin3 t) n
  have hτ : ∀ n, Stuck (τ n) := fun n => by
    induction n with
    | zero => exact st
    | succ n ih => exact (stuck_step ih).2.1
  have hn : ∀ n, τ (n + 1) = spin3 (τ n) := fun _ => rfl
  obtain ⟨σ, N, e, hσ⟩ := prepend r τ rfl (fun n => .inl (stuck_step (hτ n)).1)
  have hs : ∀ n, N ≤ n → Stuck (σ n) := fun n h => by
    have := hσ (n - N)
    rw [show N + (n - N) = n by omega] at this
    rw [this]; exact hτ _
  have hm : ∀ n, N ≤ n → (σ (n + 1)).wpc 3 ≠ (σ n).wpc 3 := fun n h => by
    have h1 := hσ (n - N)
    have h2 := hσ (n - N + 1)
    rw [show N + (n - N) = n by omega] at h1
    rw [show N + (n - N + 1) = n + 1 by omega] at h2
    rw [h1, h2]; exact (stuck_step (hτ _)).2.2
  refine ⟨σ, e, fun j n h => ?_, fun n h => ?_, fun n j hj => ?_, N, fun n h => ?_⟩
  · obtain ⟨hi, -⟩ := h (max n N) (by omega)
    have g := hs (max n N) (by omega)
    rcases Nat.lt_trichotomy j 3 with h3 | h3 | h3
    · exact absurd (g.done j h3) hi.2.1
    · subst h3; exact ⟨max n N, by omega, hm _ (by omega)⟩
    · exact absurd (g.new j h3) hi.1
  · obtain ⟨hi, -⟩ := h (max n N) (by omega)
    exact absurd (hs (max n N) (by omega)).rpc hi
  · by_cases h : n ≤ N
    · exact new_back e h ((hs N (Nat.le_refl _)).new j (by omega))
    · exact (hs n (by omega)).new j (by omega)
  · rcases (hs n h).me with g | ⟨t, g⟩ <;> rw [g] <;> simp [Inside]

end Verif.DecFair
