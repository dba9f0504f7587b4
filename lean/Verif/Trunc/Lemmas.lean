import Verif.Trunc.Model
import Verif.Trunc.Spec
import Mathlib.Tactic.IntervalCases
/-!
# Lemmas about truncation
-/
namespace Verif.Trunc
open Verif.Go

theorem unixToInternal_eq : unixToInternal = 62135596800 := by decide
theorem epoch_eq : epoch = 62135596800 := by decide
theorem internalToAbsolute_eq : internalToAbsolute = 9223371966579724800 := by decide

theorem wrap64_sub_wrap64 {x k : Int} (h : InInt64 x) : wrap64 (wrap64 (x + k) - k) = x := by
  unfold InInt64 at h; unfold wrap64; omega

/-- The remainder `div` computes for a whole number of seconds. -/
theorem divRem_seconds {e n : Int} (hn : 0 < n) (hn2 : n * 1000000000 < 2 ^ 63) (he : -2 ^ 63 < e) (he2 : e < 2 ^ 63) :
    divRem ⟨e, 0⟩ (second * n) = (e % n) * 1000000000 := by
  have hs : second = 1000000000 := rfl
  have h1 : ¬ (second * n < second ∧ second.tmod (second * n + second * n) = 0) := by
    intro ⟨h, _⟩
    rw [hs] at h; omega
  have h2 : (second * n).tmod second = 0 := Int.mul_tmod_right _ _
  have h3 : (second * n).tdiv second = n := Int.mul_tdiv_cancel_left _ (by decide)
  simp only [divRem]
  by_cases hneg : e < 0
  · have hw : wrap64 (-e) = -e := wrap64_of_in (by unfold InInt64; omega)
    have hm0 : 0 ≤ (-e) % n := Int.emod_nonneg _ (by omega)
    have hm1 : (-e) % n < n := Int.emod_lt_of_pos _ hn
    have ht : (-e).tmod n = (-e) % n := Int.tmod_eq_emod_of_nonneg (by omega)
    simp only [hneg, decide_true, if_true, hw, Int.neg_zero, Int.lt_irrefl, if_false]
    rw [if_neg h1, if_pos h2, h3, ht, hs]
    have hw1 : wrap64 ((-e) % n * 1000000000) = (-e) % n * 1000000000 := wrap64_of_in (by unfold InInt64; omega)
    rw [hw1, Int.add_zero, hw1]
    have hrel : (-e) % n = if e % n = 0 then 0 else n - e % n := by
      rw [Int.neg_emod]
      by_cases hd : n ∣ e
      · rw [if_pos hd, if_pos (Int.emod_eq_zero_of_dvd hd)]
      · rw [if_neg hd, if_neg (fun h => hd (Int.dvd_of_emod_eq_zero h))]
        omega
    have he0 : 0 ≤ e % n := Int.emod_nonneg _ (by omega)
    have he1 : e % n < n := Int.emod_lt_of_pos _ hn
    by_cases hz : e % n = 0
    · rw [if_pos hz] at hrel
      rw [hrel, hz]; simp
    · rw [if_neg hz] at hrel
      have hne : (-e) % n * 1000000000 ≠ 0 := by omega
      rw [if_pos ⟨trivial, hne⟩]
      omega
  · have hm0 : 0 ≤ e % n := Int.emod_nonneg _ (by omega)
    have hm1 : e % n < n := Int.emod_lt_of_pos _ hn
    have ht : e.tmod n = e % n := Int.tmod_eq_emod_of_nonneg (by omega)
    simp only [hneg, decide_false, Bool.false_eq_true, if_false, Int.lt_irrefl, false_and]
    rw [if_neg h1, if_pos h2, h3, ht, hs]
    have hw1 : wrap64 (e % n * 1000000000) = e % n * 1000000000 := wrap64_of_in (by unfold InInt64; omega)
    rw [hw1, Int.add_zero, hw1]

theorem add_seconds {e k : Int} (h0 : 0 ≤ k) (h1 : -2 ^ 63 ≤ e - k) (h2 : e < 2 ^ 63) :
    (⟨e, 0⟩ : Time).add (-(k * 1000000000)) = ⟨e - k, 0⟩ := by
  have hd : (-(k * 1000000000)).tdiv 1000000000 = -k := by
    rw [Int.neg_tdiv, Int.mul_tdiv_cancel _ (by decide)]
  have hm : (-(k * 1000000000)).tmod 1000000000 = 0 := by
    rw [Int.neg_tmod, Int.mul_tmod_left]; rfl
  simp only [Time.add, hd, hm]
  rw [if_neg (by omega), if_neg (by omega)]
  have hw : wrap64 (e + -k) = e - k := by rw [wrap64_of_in (by unfold InInt64; omega)]; omega
  simp only [addSec, hw, Time.mk.injEq, Int.add_zero, and_true]
  rw [if_pos]
  have : ¬ (e - k > e) := by omega
  have : ¬ (-k > 0) := by omega
  simp [*]

/-- `Truncate` for a period of `n` seconds, in its range. -/
theorem truncate_eq {sec n : Int} (hs : -2 ^ 63 ≤ sec - (sec + epoch) % n) (hs2 : sec + epoch < 2 ^ 63) (hn : 0 < n)
    (hn2 : n * 1000000000 < 2 ^ 63) : truncate sec n = sec - (sec + epoch) % n := by
  rw [epoch_eq] at *
  have hm0 : 0 ≤ (sec + 62135596800) % n := Int.emod_nonneg _ (by omega)
  have hm1 : (sec + 62135596800) % n < n := Int.emod_lt_of_pos _ hn
  have hw : wrap64 (sec + unixToInternal) = sec + 62135596800 := by
    rw [unixToInternal_eq]; exact wrap64_of_in (by unfold InInt64; omega)
  have hw2 : wrap64 (second * n) = second * n := wrap64_of_in (by unfold InInt64 second; omega)
  have hd : ¬ second * n ≤ 0 := by unfold second; omega
  simp only [truncate, ofUnix, hw, hw2, Time.truncate]
  rw [if_neg hd, divRem_seconds (e := sec + 62135596800) hn hn2 (by omega) (by omega),
    add_seconds (e := sec + 62135596800) (k := (sec + 62135596800) % n) hm0 (by omega) (by omega)]
  simp only [Time.unix, unixToInternal_eq]
  rw [wrap64_of_in (by unfold InInt64; omega)]
  omega

theorem isFloor_emod {n sec : Int} (hn : 0 < n) : IsFloor n sec (sec - (sec + epoch) % n) := by
  have hm0 : 0 ≤ (sec + epoch) % n := Int.emod_nonneg _ (by omega)
  have hm1 : (sec + epoch) % n < n := Int.emod_lt_of_pos _ hn
  refine ⟨by omega, ?_, ?_⟩
  · have := Int.dvd_sub_self_of_emod_eq (rfl : (sec + epoch) % n = (sec + epoch) % n)
    rw [show sec - (sec + epoch) % n + epoch = -(((sec + epoch) % n) - (sec + epoch)) by omega]
    exact Int.dvd_neg.2 this
  · intro x hx hd
    by_contra hc
    have h1 : n ∣ sec - (sec + epoch) % n + epoch := by
      have := Int.dvd_sub_self_of_emod_eq (rfl : (sec + epoch) % n = (sec + epoch) % n)
      rw [show sec - (sec + epoch) % n + epoch = -(((sec + epoch) % n) - (sec + epoch)) by omega]
      exact Int.dvd_neg.2 this
    have h2 : n ∣ x - (sec - (sec + epoch) % n) := by
      have := Int.dvd_sub hd h1
      rwa [show x + epoch - (sec - (sec + epoch) % n + epoch) = x - (sec - (sec + epoch) % n) by omega] at this
    have := Int.le_of_dvd (by omega) h2
    omega

theorem isFloor_unique {n sec r r' : Int} (h : IsFloor n sec r) (h' : IsFloor n sec r') : r = r' := by
  have := h.2.2 r' h'.1 h'.2.1
  have := h'.2.2 r h.1 h.2.1
  omega

/-! ## Calendar -/

/-- Days from the start of the zero year to the start of the year `y` after it. -/
def days (y : Int) : Int := 365 * y + y / 4 - y / 100 + y / 400

theorem days_succ (y : Int) : days (y + 1) = days y + yearDays (y + zeroYear) := by
  unfold days yearDays leap zeroYear
  have h4 : (y + 1) / 4 = y / 4 + if (y + 1) % 4 = 0 then 1 else 0 := by split <;> omega
  have h100 : (y + 1) / 100 = y / 100 + if (y + 1) % 100 = 0 then 1 else 0 := by split <;> omega
  have h400 : (y + 1) / 400 = y / 400 + if (y + 1) % 400 = 0 then 1 else 0 := by split <;> omega
  have e4 : (y + -292277022399) % 4 = (y + 1) % 4 := by omega
  have e100 : (y + -292277022399) % 100 = (y + 1) % 100 := by omega
  have e400 : (y + -292277022399) % 400 = (y + 1) % 400 := by omega
  rw [h4, h100, h400, e4, e100, e400]
  by_cases c4 : (y + 1) % 4 = 0 <;> by_cases c100 : (y + 1) % 100 = 0 <;> by_cases c400 : (y + 1) % 400 = 0 <;>
    simp [c4, c100, c400] <;> omega

theorem days_split {n1 n2 n3 n4 : Nat} (h2 : n2 ≤ 3) (h3 : n3 ≤ 24) (h4 : n4 ≤ 3) :
    days ((400 * n1 + 100 * n2 + 4 * n3 + n4 : Nat) : Int) = 146097 * n1 + 36524 * n2 + 1461 * n3 + 365 * n4 := by
  unfold days
  have e4 : ((400 * n1 + 100 * n2 + 4 * n3 + n4 : Nat) : Int) / 4 = 100 * n1 + 25 * n2 + n3 := by omega
  have e100 : ((400 * n1 + 100 * n2 + 4 * n3 + n4 : Nat) : Int) / 100 = 4 * n1 + n2 := by omega
  have e400 : ((400 * n1 + 100 * n2 + 4 * n3 + n4 : Nat) : Int) / 400 = n1 := by omega
  rw [e4, e100, e400]
  push_cast
  omega

/-- The length of the year written in this way. -/
theorem yearDays_split {n1 n2 n3 n4 : Nat} (h2 : n2 ≤ 3) (h3 : n3 ≤ 24) (h4 : n4 ≤ 3) :
    yearDays (((400 * n1 + 100 * n2 + 4 * n3 + n4 : Nat) : Int) + zeroYear) =
      if n4 = 3 ∧ (n3 ≠ 24 ∨ n2 = 3) then 366 else 365 := by
  unfold yearDays leap zeroYear
  have : (decide ((((400 * n1 + 100 * n2 + 4 * n3 + n4 : Nat) : Int) + -292277022399) % 4 = 0 ∧
      ((((400 * n1 + 100 * n2 + 4 * n3 + n4 : Nat) : Int) + -292277022399) % 100 ≠ 0 ∨
        (((400 * n1 + 100 * n2 + 4 * n3 + n4 : Nat) : Int) + -292277022399) % 400 = 0)) = true) ↔
      (n4 = 3 ∧ (n3 ≠ 24 ∨ n2 = 3)) := by
    rw [decide_eq_true_iff]
    constructor
    · intro ⟨ha, hb⟩
      refine ⟨by omega, ?_⟩
      by_cases h24 : n3 = 24
      · right
        rcases hb with hb | hb <;> omega
      · exact Or.inl h24
    · intro ⟨ha, hb⟩
      refine ⟨by omega, ?_⟩
      rcases hb with hb | hb
      · left; omega
      · by_cases h24 : n3 = 24
        · right; omega
        · left; omega
  by_cases hc : n4 = 3 ∧ (n3 ≠ 24 ∨ n2 = 3)
  · rw [if_pos hc, if_pos (this.2 hc)]
  · rw [if_neg hc, if_neg (fun h => hc (this.1 h))]

/-- The year `absDate` computes contains the day, and the day of the year is right. -/
theorem absYear_spec (abs : Nat) : ∃ y : Nat, (absYear abs).1 = y + zeroYear ∧
    ((abs / 86400 : Nat) : Int) = days y + (absYear abs).2 ∧ ((absYear abs).2 : Int) < yearDays (y + zeroYear) := by
  simp only [absYear]
  generalize abs / 86400 = D
  generalize hn1 : D / 146097 = n1
  generalize hd1 : D - 146097 * n1 = d1
  generalize hn2 : d1 / 36524 - d1 / 36524 / 4 = n2
  generalize hd2 : d1 - 36524 * n2 = d2
  generalize hn3 : d2 / 1461 = n3
  generalize hd3 : d2 - 1461 * n3 = d3
  generalize hn4 : d3 / 365 - d3 / 365 / 4 = n4
  generalize hd4 : d3 - 365 * n4 = d4
  have b1 : d1 < 146097 := by omega
  have b2 : n2 ≤ 3 := by omega
  have c2 : 36524 * n2 ≤ d1 := by omega
  have b2' : d2 ≤ 36524 := by omega
  have b2'' : d2 = 36524 → n2 = 3 := by omega
  have b3 : n3 ≤ 24 := by omega
  have b3' : d3 < 1461 := by omega
  have b4 : n4 ≤ 3 := by omega
  have c4 : 365 * n4 ≤ d3 := by omega
  have b4' : d4 ≤ 365 := by omega
  have b4'' : d4 = 365 → n4 = 3 ∧ d3 = 1460 := by omega
  refine ⟨400 * n1 + 100 * n2 + 4 * n3 + n4, rfl, ?_, ?_⟩
  · rw [days_split b2 b3 b4]; omega
  · rw [yearDays_split b2 b3 b4]
    split
    · omega
    · by_contra hc
      obtain ⟨e1, e2⟩ := b4'' (by omega)
      have : n3 = 24 → n2 = 3 := fun e => b2'' (by omega)
      omega

/-- `daysSinceEpoch`. -/
theorem daysSinceEpoch_eq {y : Nat} (hy : y < 2 ^ 64) : (daysSinceEpoch (y + zeroYear) : Int) = days y := by
  have : (((y : Int) + zeroYear - zeroYear) % 2 ^ 64).toNat = y := by
    rw [Int.add_sub_cancel]; omega
  simp only [daysSinceEpoch, this]
  unfold days
  omega

theorem isLeap_eq (y : Int) : isLeap y = leap y := by
  unfold isLeap leap
  have h : ∀ k : Int, (y.tmod k = 0) ↔ (y % k = 0) := fun k => by
    rw [← Int.dvd_iff_emod_eq_zero, ← Int.dvd_iff_tmod_eq_zero]
  rw [Bool.eq_iff_iff]
  simp [h]

theorem leap_iff (y : Int) : yearDays y = if leap y then 366 else 365 := rfl

/-- Days of the year before the month after month `m` (from 0), as the code counts them. -/
def before (l : Bool) (m : Nat) : Nat := daysBefore m + if l ∧ m ≥ 2 then 1 else 0

/-- The month of a day of the year. -/
theorem monthOfDay_spec : ∀ (l : Bool) (d : Nat), d < (if l then 366 else 365) →
    1 ≤ monthOfDay l d ∧ monthOfDay l d ≤ 12 ∧ before l (monthOfDay l d - 1) ≤ d ∧ d < before l (monthOfDay l d) := by
  have key : ∀ (l : Bool) (d : Fin 366), d.1 < (if l then 366 else 365) →
      1 ≤ monthOfDay l d ∧ monthOfDay l d ≤ 12 ∧ before l (monthOfDay l d - 1) ≤ d ∧ d < before l (monthOfDay l d) := by
    set_option maxRecDepth 20000 in decide
  intro l d hd
  have : d < 366 := by cases l <;> simp at hd <;> omega
  exact key l ⟨d, this⟩ hd

/-- The calendar in closed form: years. -/
theorem ys_eq {ys : Int → Int} {ms : Int → Nat → Int} (c : Calendar ys ms) (y : Int) :
    ys (y + zeroYear) = 86400 * days y - (unixToInternal + internalToAbsolute) := by
  have h0 : ys (292277024369 + zeroYear) = 86400 * days 292277024369 - (unixToInternal + internalToAbsolute) := by
    rw [show (292277024369 : Int) + zeroYear = 1970 by decide, c.epoch]; decide
  have up : ∀ k : Nat, ys (292277024369 + k + zeroYear) =
      86400 * days (292277024369 + k) - (unixToInternal + internalToAbsolute) := by
    intro k
    induction k with
    | zero => simpa using h0
    | succ k ih =>
      have h1 := c.year (292277024369 + k + zeroYear)
      have h2 := days_succ (292277024369 + k)
      rw [show (292277024369 : Int) + (k + 1 : Nat) + zeroYear = 292277024369 + k + zeroYear + 1 by push_cast; ring, h1, ih,
        show (292277024369 : Int) + (k + 1 : Nat) = 292277024369 + k + 1 by push_cast; ring, h2]
      ring
  have down : ∀ k : Nat, ys (292277024369 - k + zeroYear) =
      86400 * days (292277024369 - k) - (unixToInternal + internalToAbsolute) := by
    intro k
    induction k with
    | zero => simpa using h0
    | succ k ih =>
      have h1 := c.year (292277024369 - (k + 1 : Nat) + zeroYear)
      have h2 := days_succ (292277024369 - (k + 1 : Nat))
      rw [show (292277024369 : Int) - (k + 1 : Nat) + zeroYear + 1 = 292277024369 - k + zeroYear by push_cast; ring, ih] at h1
      rw [show (292277024369 : Int) - (k + 1 : Nat) + 1 = 292277024369 - k by push_cast; ring] at h2
      rw [h2] at h1
      linarith
  by_cases h : 292277024369 ≤ y
  · have := up (y - 292277024369).toNat
    rwa [Int.toNat_of_nonneg (by omega), show (292277024369 : Int) + (y - 292277024369) = y by ring] at this
  · have := down (292277024369 - y).toNat
    rwa [Int.toNat_of_nonneg (by omega), show (292277024369 : Int) - (292277024369 - y) = y by ring] at this

/-- The calendar in closed form: months. -/
theorem ms_eq {ys : Int → Int} {ms : Int → Nat → Int} (c : Calendar ys ms) (y : Int) :
    ∀ m, m < 13 → ms y (m + 1) = ys y + 86400 * before (leap y) m := by
  intro m
  induction m with
  | zero => intro _; rw [c.jan]; simp [before, daysBefore]
  | succ m ih =>
    intro hm
    rw [c.month y (m + 1) (by omega) (by omega), ih (by omega)]
    have : (before (leap y) (m + 1) : Int) = before (leap y) m + monthDays y (m + 1) := by
      unfold monthDays before
      have : m < 12 := by omega
      generalize leap y = l
      interval_cases m <;> cases l <;> rfl
    rw [this]; ring

end Verif.Trunc
