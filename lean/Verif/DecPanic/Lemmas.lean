import Verif.DecPanic.Model
import Verif.Decouple.Wrap
/-!
# A panicking view only puts the reader back
-/
namespace Verif.DecPanic
open Verif.Decouple

variable {α : Type} {size : Nat} {payload : Nat → List α} {p q : PSt α}

/-- The reader back before line 77. -/
def back (s : St α) : St α := { s with rpc := .idle }

/-- The reader has not got past line 94. -/
def early (r : RPc) : Prop := (∃ i, r = .spin i) ∨ ∃ i, r = .view i

theorem back_of {s : St α} (h : s.rpc = .idle) : back s = s := by
  cases s; simp only [back] at h ⊢; subst h; rfl

/-- A state in which the reader is early is also reached with the reader still idle. -/
theorem reach_back {s : St α} (r : Reach size payload s) : early s.rpc → Reach size payload (back s) := by
  induction r with
  | init => rintro (⟨i, h⟩ | ⟨i, h⟩) <;> cases h
  | @step s s' r st ih =>
    intro he
    cases st with
    | callEmpty j h h1 => exact (ih he).step (.callEmpty _ j h h1)
    | call j h h1 => exact (ih he).step (.call _ j h h1)
    | add j h h1 => exact (ih he).step (.add _ j h h1)
    | addCrash j h h1 => exact (ih he).step (.addCrash _ j h h1)
    | loadEmpty j ts h h1 => exact (ih he).step (.loadEmpty _ j ts h h1)
    | loadBusy j ts h h1 => exact (ih he).step (.loadBusy _ j ts h h1)
    | loadFull j ts h h1 h2 => exact (ih he).step (.loadFull _ j ts h h1 h2)
    | casOk j ts h h1 => exact (ih he).step (.casOk _ j ts h h1)
    | casFail j ts h h1 => exact (ih he).step (.casFail _ j ts h h1)
    | copy j ts h => exact (ih he).step (.copy _ j ts h)
    | store j ts h => exact (ih he).step (.store _ j ts h)
    | incr j h => exact (ih he).step (.incr _ j h)
    | chkFull j h h1 => exact (ih he).step (.chkFull _ j h h1)
    | chkRetry j h h1 => exact (ih he).step (.chkRetry _ j h h1)
    | nextNone h h1 => exact ih he
    | nextCrash h h1 h2 => rcases he with ⟨i, he⟩ | ⟨i, he⟩ <;> (simp only [h] at he; cases he)
    | next h h1 h2 =>
      have e : back { s with rpc := .spin (slot size s.rd) } = s := by
        have := back_of h
        simpa [back] using this
      rw [e]; exact r
    | spinWait i h h1 => exact ih he
    | spinEnd i h h1 h2 => exact ih (.inl ⟨i, h⟩)
    | view i h => rcases he with ⟨i, he⟩ | ⟨i, he⟩ <;> cases he
    | clear i h => rcases he with ⟨i, he⟩ | ⟨i, he⟩ <;> cases he
    | decr h => rcases he with ⟨i, he⟩ | ⟨i, he⟩ <;> cases he

theorem view_slot {s : St α} (r : Reach size payload s) {i : Nat} (h : s.rpc = .view i) : i = slot size s.rd := by
  induction r with
  | init => cases h
  | step r st ih =>
    cases st <;> first
      | exact ih h
      | (cases h; done)
      | (cases h; exact spin_slot r (by assumption))

/-- What stays while a payload waits to be shown again. -/
structure Again (size i : Nat) (b : List α) (s : St α) : Prop where
  rpc : s.rpc = .idle ∨ s.rpc = .spin i ∨ s.rpc = .view i
  len : s.len ≠ 0
  slot : slot size s.rd = i
  full : full (s.lock i) = true
  buf : s.buf i = b

theorem again_step {s s' : St α} {own sl : Nat → Nat} {js inc fl : List Nat} (hz : size < W - 2)
    (n : Inv size payload s own sl js) (c : Cnt size s inc fl) {i : Nat} {b : List α} (a : Again size i b s)
    (st : Step size payload s s') (hl : s'.log = s.log) : Again size i b s' := by
  have cle := c.le
  obtain ⟨a1, a2, a3, a4, a5⟩ := a
  have hb : full busyL = false := by decide
  have he : full emptyL = false := by decide
  cases st with
  | casOk j ts h h1 =>
    have hne : i ≠ Decouple.slot size ts := by rintro rfl; rw [h1, he] at a4; cases a4
    exact ⟨a1, a2, a3, by simpa [St.at, hne] using a4, a5⟩
  | copy j ts h =>
    have hne : i ≠ Decouple.slot size ts := by
      rintro rfl; rw [(n.hold j ts (by rw [h]; rfl)).1, hb] at a4; cases a4
    exact ⟨a1, a2, a3, a4, by simpa [St.at, hne] using a5⟩
  | store j ts h =>
    have hne : i ≠ Decouple.slot size ts := by
      rintro rfl; rw [(n.hold j ts (by rw [h]; rfl)).1, hb] at a4; cases a4
    exact ⟨a1, a2, a3, by simpa [St.at, hne] using a4, a5⟩
  | incr j h =>
    refine ⟨a1, ?_, a3, a4, a5⟩
    simp only [St.at]
    rw [Nat.mod_eq_of_lt (by unfold W at *; omega)]
    omega
  | next h h1 h2 => exact ⟨.inr (.inl (by rw [a3])), a2, a3, a4, a5⟩
  | spinEnd k h h1 h2 =>
    refine ⟨?_, a2, a3, a4, a5⟩
    rcases a1 with g | g | g
    · rw [h] at g; cases g
    · rw [h] at g; injection g with g; subst g; exact .inr (.inr rfl)
    · rw [h] at g; cases g
  | view k h => simp at hl
  | clear k h => rcases a1 with g | g | g <;> (rw [h] at g; cases g)
  | decr h => rcases a1 with g | g | g <;> (rw [h] at g; cases g)
  | _ => exact ⟨a1, a2, a3, a4, a5⟩

theorem log_mono {s s' : St α} (st : Step size payload s s') : ∃ l, s'.log = s.log ++ l := by
  cases st <;> first | exact ⟨_, rfl⟩ | exact ⟨[], (List.append_nil _).symm⟩

end Verif.DecPanic
