import Verif.DecFair.Marks
/-!
# C130: every `Write` on a decoupler returns
-/
namespace Verif.DecFair
open Verif.Decouple

variable {α : Type} {size : Nat} {payload : Nat → List α} {σ : Nat → St α}

/-- C130 in full: in every fair execution, every `Write` that begins returns. -/
def C130_full : Prop := ∀ (size : Nat) (payload : Nat → List Nat) (σ : Nat → St Nat), size ≠ 0 → size < W - 2 → Exec size payload σ →
  FairWriters size payload σ → FairReader size payload σ → AllReturn σ

/-- C130, when `Write` is called finitely often and no payload is stored with a ticket that is one of the two
marks. Missing: executions with infinitely many calls, for which it is false (`C130_refuted`), and executions with
such a ticket, for which it is false even with four calls (`C130_refuted_marks`). -/
theorem C130_partial (hs : size ≠ 0) (hz : size < W - 2) (e : Exec size payload σ) (fw : FairWriters size payload σ)
    (fr : FairReader size payload σ) (hK : FewWrites σ) (hc : NoMarks σ) : AllReturn σ := by
  obtain ⟨K, hK⟩ := hK
  exact returns hs hz e fw fr ⟨K, fun n j hj => by rw [hK n j hj]; simp⟩ hc

/-- A `Write` waits only because of others: if one never returns, infinitely many others are accepted. -/
theorem C130_lockfree (hs : size ≠ 0) (hz : size < W - 2) (e : Exec size payload σ) (fw : FairWriters size payload σ)
    (fr : FairReader size payload σ) (hc : NoMarks σ) {n j : Nat} (hi : Inside ((σ n).wpc j)) (hn : ∀ m, n ≤ m → ¬ Over ((σ m).wpc j)) :
    ∀ K, ∃ m k, K ≤ k ∧ (σ m).wpc k = .accepted := by
  intro K
  by_contra hx
  obtain ⟨m, h1, h2⟩ := returns hs hz e fw fr ⟨K, fun m k hk h => hx ⟨m, k, hk, h⟩⟩ hc n j hi
  exact hn m h1 h2

/-- A fair execution, of size 1, in which no ticket is a mark and the first `Write` never returns. -/
theorem C130_starved : ∃ σ : Nat → St Nat, Exec 1 one σ ∧ FairWriters 1 one σ ∧ FairReader 1 one σ ∧ NoMarks σ ∧
    ∀ n, 1 ≤ n → Inside ((σ n).wpc 0) :=
  ⟨starve, starve_exec, starve_fairW, starve_fairR, starve_noMarks, fun n hn => by
    have := starve_inside (n - 1)
    rwa [show n - 1 + 1 = n by omega] at this⟩

theorem not_over {p : WPc} (h : Inside p) : ¬ Over p := by
  rintro (h' | h')
  · exact h.2.1 h'
  · exact h.2.2 h'

theorem C130_refuted : ¬ C130_full := by
  intro hc
  obtain ⟨σ, e, fw, fr, _, hi⟩ := C130_starved
  obtain ⟨m, h1, h2⟩ := hc 1 one σ (by decide) (by decide) e fw fr 1 0 (hi 1 (Nat.le_refl _))
  exact not_over (hi m h1) h2

/-- A fair execution, of size 1, with four `Write` calls of which the last never returns. -/
theorem C130_refuted_marks : ¬ ∀ (size : Nat) (payload : Nat → List Nat) (σ : Nat → St Nat), size ≠ 0 → size < W - 2 →
    Exec size payload σ → FairWriters size payload σ → FairReader size payload σ → FewWrites σ → AllReturn σ := by
  intro hc
  obtain ⟨σ, e, fw, fr, hk, N, hi⟩ := marks
  obtain ⟨m, h1, h2⟩ := hc 1 one σ (by decide) (by decide) e fw fr ⟨4, fun n j => hk n j⟩ N 3 (hi N (Nat.le_refl _))
  exact not_over (hi m h1) h2

/-- One call on its own: the hypotheses of `C130_partial` hold. -/
example : ∃ σ : Nat → St Nat, Exec 1 one σ ∧ FairWriters 1 one σ ∧ FairReader 1 one σ ∧ FewWrites σ ∧ NoMarks σ ∧ ∃ n, Inside ((σ n).wpc 0) := by
  let s0 : St Nat := init
  let s1 := s0.at 0 .add
  let t := (s1.wr + 1) % W
  let s2 := { s1 with wr := (s1.wr + 1) % W, attempts := s1.attempts + 1 }.at 0 (.load ((s1.wr + 1) % W))
  let s3 := s2.at 0 (.cas t)
  let s4 := { s3 with lock := fun i => if i = slot 1 t then busyL else s3.lock i }.at 0 (.copy t)
  let s5 := { s4 with buf := fun i => if i = slot 1 t then one 0 else s4.buf i }.at 0 (.store t)
  let s6 := { s5 with lock := fun i => if i = slot 1 t then t else s5.lock i }.at 0 .incr
  let s7 := { s6 with len := (s6.len + 1) % W }.at 0 .accepted
  let σ : Nat → St Nat := fun n => match n with | 0 => s0 | 1 => s1 | 2 => s2 | 3 => s3 | 4 => s4 | 5 => s5 | 6 => s6 | _ => s7
  have new : ∀ n j, 1 ≤ j → (σ n).wpc j = .new := fun n j hj => by
    have h0 : j ≠ 0 := Nat.ne_of_gt hj
    match n with
    | 0 => rfl
    | 1 => simp [σ, s1, s0, St.at, init, h0]
    | 2 => simp [σ, s2, s1, s0, St.at, init, h0]
    | 3 => simp [σ, s3, s2, s1, s0, St.at, init, h0]
    | 4 => simp [σ, s4, s3, s2, s1, s0, St.at, init, h0]
    | 5 => simp [σ, s5, s4, s3, s2, s1, s0, St.at, init, h0]
    | 6 => simp [σ, s6, s5, s4, s3, s2, s1, s0, St.at, init, h0]
    | n + 7 => simp [σ, s7, s6, s5, s4, s3, s2, s1, s0, St.at, init, h0]
  have own : ∀ n, (σ n).wpc 0 = match n with | 0 => .new | 1 => .add | 2 => .load t | 3 => .cas t | 4 => .copy t | 5 => .store t | 6 => .incr | _ => .accepted :=
    fun n => by
      match n with
      | 0 => rfl
      | 1 => simp [σ, s1, St.at]
      | 2 => simp [σ, s2, St.at, t]
      | 3 => simp [σ, s3, St.at]
      | 4 => simp [σ, s4, St.at]
      | 5 => simp [σ, s5, St.at]
      | 6 => simp [σ, s6, St.at]
      | n + 7 => simp [σ, s7, St.at]
  have he : s0.lock (slot 1 t) = emptyL := by simp [s0, init]
  have ht : t ≠ emptyL ∧ t ≠ busyL := by simp only [t, s1, s0, St.at, init]; decide
  refine ⟨σ, ⟨rfl, fun n => ?_⟩, fun j n h => ?_, fun n h => ?_, ⟨1, fun n j hj => new n j hj⟩, fun n j ts h => ?_, 1, by rw [own]; simp [Inside]⟩
  · match n with
    | 0 => exact .inl (.call s0 0 rfl (by simp [one]))
    | 1 => exact .inl (.add s1 0 (own 1) (by decide))
    | 2 => exact .inl (.loadEmpty s2 0 t (own 2) he)
    | 3 => exact .inl (.casOk s3 0 t (own 3) he)
    | 4 => exact .inl (.copy s4 0 t (own 4))
    | 5 => exact .inl (.store s5 0 t (own 5))
    | 6 => exact .inl (.incr s6 0 (own 6))
    | n + 7 => exact .inr rfl
  · obtain ⟨hi, -⟩ := h (n + 7) (Nat.le_add_right _ _)
    by_cases hj : j = 0
    · subst hj; exact absurd (own (n + 7)) hi.2.1
    · exact absurd (new (n + 7) j (Nat.pos_of_ne_zero hj)) hi.1
  · obtain ⟨hi, -⟩ := h (n + 7) (Nat.le_add_right _ _)
    have hr : (σ (n + 7)).rpc = .idle := by simp [σ, s7, s6, s5, s4, s3, s2, s1, s0, St.at, init]
    exact absurd hr hi
  · by_cases hj : j = 0
    · subst hj
      rw [own] at h
      match n, h with
      | 5, h => cases h; exact ht
      | 6, h => cases h
      | n + 7, h => cases h
    · rw [new n j (Nat.pos_of_ne_zero hj)] at h; cases h

end Verif.DecFair
