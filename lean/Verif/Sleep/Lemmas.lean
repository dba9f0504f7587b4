import Verif.Sleep.Model
import Mathlib.Data.Int.GCD
/-!
# Invariants of the sleeper
-/
namespace Verif.Sleep
open Verif.Go

/-- Between the compare-and-swap and the store: the call is sleeping, about to, or about to return. -/
def Pc.sleeping : Pc → Bool
  | .readCtx _ | .wait _ _ | .release => true
  | _ => false

structure Inv (s : St) : Prop where
  one : ∀ g h, (s.pc g).sleeping = true → (s.pc h).sleeping = true → g = h
  slept : s.slept = true ↔ ∃ g, (s.pc g).sleeping = true

theorem at_pc (s : St) (g h : Nat) (p : Pc) : (s.at g p).pc h = if h = g then p else s.pc h := rfl

theorem free_not_sleeping {p : Pc} (h : p.free = true) : p.sleeping = false := by cases p <;> simp_all [Pc.free, Pc.sleeping]

theorem inv_step {s s' : St} {g : Nat} (i : Inv s) (st : Step g s s') : Inv s' := by
  obtain ⟨i1, i2⟩ := i
  cases st <;> constructor <;> (try simp only [at_pc, St.at]) <;>
    grind [Pc.sleeping, free_not_sleeping]

theorem inv_reach {s : St} (r : Reach s) : Inv s := by
  induction r with
  | init => constructor <;> simp [init, Pc.sleeping]
  | step _ st ih => exact inv_step ih st

/-- In `Wakeup` after the load. -/
def Pc.waking : Pc → Bool
  | .load | .callCancel | .writeCtx | .writeCancel _ => true
  | _ => false

/-- Between the cancellation and the second assignment. -/
def Pc.renewing : Pc → Bool
  | .writeCtx | .writeCancel _ => true
  | _ => false

theorem free_not_renewing {p : Pc} (h : p.free = true) : p.renewing = false ∧ p.waking = false := by
  cases p <;> simp_all [Pc.free, Pc.renewing, Pc.waking]

/-- Single waker. -/
structure Inv1 (w : Nat) (s : St) : Prop where
  only : ∀ g, g ≠ w → (s.pc g).waking = false
  quiet : (s.pc w).renewing = false → s.ctx = s.cancel ∧ s.canceled s.ctx = false
  mid : s.pc w = .writeCtx → s.canceled s.ctx = true
  late : ∀ c, s.pc w = .writeCancel c → s.ctx = c ∧ s.canceled c = false
  fresh : s.ctx < s.next ∧ s.cancel < s.next ∧ ∀ c, s.next ≤ c → s.canceled c = false
  waits : ∀ g c f, s.pc g = .wait c f → c = s.ctx ∨ s.canceled c = true

theorem inv1_step {w : Nat} {s s' : St} {g : Nat} (i : Inv1 w s) (st : Step g s s') (hw : g ≠ w → s'.pc g ≠ .load) :
    Inv1 w s' := by
  obtain ⟨i1, i2, i3, i4, i5, i6⟩ := i
  cases st <;> constructor <;> (try simp only [at_pc, St.at] at hw ⊢) <;> grind [Pc.waking, Pc.renewing, free_not_renewing]

theorem inv1_reach {w : Nat} {s : St} (r : Reach1 w s) : Inv1 w s := by
  induction r with
  | init => constructor <;> simp [init, Pc.waking, Pc.renewing]
  | step _ st hw ih => exact inv1_step ih st hw

theorem reach_of_reach1 {w : Nat} {s : St} (r : Reach1 w s) : Reach s := by
  induction r with
  | init => exact .init
  | step _ st _ ih => exact .step ih st

/-- A context stays canceled. -/
theorem canceled_step {s s' : St} {g c : Nat} (st : Step g s s') (h : s.canceled c = true) : s'.canceled c = true := by
  cases st <;> simp_all [St.at]

/-- The context current when `w` calls `Wakeup` is canceled when it returns true. -/
theorem cancels {w : Nat} {s s' : St} {c : Nat} (i : Inv1 w s) (h : s.pc w = .load) (hc : c = s.ctx)
    (st : Steps1 w s s') : Inv1 w s' ∧ (s'.canceled c = true ∨
      (s'.ctx = c ∧ s'.cancel = c ∧ (s'.pc w).renewing = false ∧ s'.pc w ≠ .wakeRet true)) := by
  induction st with
  | refl =>
    refine ⟨i, Or.inr ⟨hc.symm, ?_, ?_, ?_⟩⟩
    · rw [hc]; exact (i.quiet (by simp [h, Pc.renewing])).1.symm
    all_goals simp [h, Pc.renewing]
  | step _ st hw ih =>
    obtain ⟨i', ih⟩ := ih
    refine ⟨inv1_step i' st hw, ?_⟩
    obtain ⟨i1, i2, i3, i4, i5, i6⟩ := i'
    rcases ih with ih | ⟨a1, a2, a3, a4⟩
    · exact Or.inl (canceled_step st ih)
    · cases st <;> (try simp only [at_pc, St.at] at hw ⊢) <;> grind [Pc.waking, Pc.renewing, free_not_renewing]

end Verif.Sleep
