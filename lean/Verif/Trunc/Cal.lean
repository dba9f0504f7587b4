import Verif.Trunc.Lemmas
import Mathlib.Order.SuccPred.Basic
/-!
# Calendar truncation: lemmas
-/
namespace Verif.Trunc
open Verif.Go

variable {ys : Int → Int} {ms : Int → Nat → Int}

theorem yearDays_pos (y : Int) : 0 < yearDays y := by unfold yearDays; split <;> decide

theorem ys_lt (c : Calendar ys ms) {a b : Int} (h : a < b) : ys a < ys b := by
  have : ∀ k : Nat, ys a < ys (a + k + 1) := by
    intro k
    induction k with
    | zero => have := c.year a; have := yearDays_pos a; simp; omega
    | succ k ih =>
      have h1 := c.year (a + k + 1)
      have h2 := yearDays_pos (a + k + 1)
      rw [show a + ((k + 1 : Nat) : Int) + 1 = a + k + 1 + 1 by push_cast; ring]
      omega
  have h' := this (b - a - 1).toNat
  rwa [Int.toNat_of_nonneg (by omega), show a + (b - a - 1) + 1 = b by ring] at h'

theorem year_unique (c : Calendar ys ms) {sec a b : Int} (ha : ys a ≤ sec ∧ sec < ys (a + 1))
    (hb : ys b ≤ sec ∧ sec < ys (b + 1)) : a = b := by
  rcases Int.lt_trichotomy a b with h | h | h
  · by_cases e : a + 1 = b
    · subst e; omega
    · have := ys_lt c (show a + 1 < b by omega); omega
  · exact h
  · by_cases e : b + 1 = a
    · subst e; omega
    · have := ys_lt c (show b + 1 < a by omega); omega

theorem before_mono (l : Bool) {a b : Nat} (h : a ≤ b) (hb : b < 13) : before l a ≤ before l b := by
  have key : ∀ (l : Bool) (b : Fin 13) (a : Fin 13), a ≤ b → before l a ≤ before l b := by decide
  exact key l ⟨b, hb⟩ ⟨a, by omega⟩ h

theorem before_12 (y : Int) : (before (leap y) 12 : Int) = yearDays y := by
  rw [leap_iff]; generalize leap y = l; cases l <;> rfl

theorem ms_13 (c : Calendar ys ms) (y : Int) : ms y 13 = ys (y + 1) := by
  rw [ms_eq c y 12 (by omega), c.year, before_12]

theorem ms_mono (c : Calendar ys ms) (y : Int) {a b : Nat} (ha : 1 ≤ a) (h : a ≤ b) (hb : b ≤ 13) : ms y a ≤ ms y b := by
  have h1 := ms_eq c y (a - 1) (by omega)
  have h2 := ms_eq c y (b - 1) (by omega)
  have h3 := before_mono (leap y) (show a - 1 ≤ b - 1 by omega) (by omega)
  rw [Nat.sub_add_cancel (by omega)] at h1 h2
  omega

theorem month_in_year (c : Calendar ys ms) {sec y : Int} {m : Nat} (hm : 1 ≤ m) (hm' : m ≤ 12)
    (h : ms y m ≤ sec ∧ sec < ms y (m + 1)) : ys y ≤ sec ∧ sec < ys (y + 1) := by
  have h1 := ms_mono c y (le_refl 1) hm (by omega)
  have h2 := ms_mono c y (show 1 ≤ m + 1 by omega) (show m + 1 ≤ 13 by omega) (le_refl 13)
  rw [c.jan] at h1
  rw [ms_13 c] at h2
  omega

theorem month_unique (c : Calendar ys ms) {sec a b : Int} {m n : Nat} (hm : 1 ≤ m) (hm' : m ≤ 12) (hn : 1 ≤ n) (hn' : n ≤ 12)
    (ha : ms a m ≤ sec ∧ sec < ms a (m + 1)) (hb : ms b n ≤ sec ∧ sec < ms b (n + 1)) : a = b ∧ m = n := by
  have e := year_unique c (month_in_year c hm hm' ha) (month_in_year c hn hn' hb)
  subst e
  refine ⟨rfl, ?_⟩
  rcases Nat.lt_trichotomy m n with h | h | h
  · have := ms_mono c a (show 1 ≤ m + 1 by omega) (show m + 1 ≤ n by omega) (by omega); omega
  · exact h
  · have := ms_mono c a (show 1 ≤ n + 1 by omega) (show n + 1 ≤ m by omega) (by omega); omega

/-- `Date` of the first of a month at or before a time in range. -/
theorem dateUnix_eq (c : Calendar ys ms) {sec : Int} (hs : InInt64 sec) (y : Nat) (m : Nat) (hm : 1 ≤ m) (hm' : m ≤ 12)
    (hle : ms (y + zeroYear) m ≤ sec) : dateUnix (y + zeroYear) m = ms (y + zeroYear) m := by
  have h1 := ms_eq c (y + zeroYear) (m - 1) (by omega)
  rw [Nat.sub_add_cancel hm, ys_eq c] at h1
  have hK1 := unixToInternal_eq
  have hK2 := internalToAbsolute_eq
  have hd : (365 * (y : Int)) ≤ days y := by unfold days; omega
  unfold InInt64 at hs
  have hb0 : (0 : Int) ≤ before (leap (y + zeroYear)) (m - 1) := by omega
  have hy : y < 2 ^ 64 := by omega
  have hse := daysSinceEpoch_eq hy
  simp only [dateUnix]
  have hD : ((if isLeap (y + zeroYear) = true ∧ m ≥ 3 then daysSinceEpoch (y + zeroYear) + daysBefore (m - 1) + 1
      else daysSinceEpoch (y + zeroYear) + daysBefore (m - 1) : Nat) : Int) = days y + before (leap (y + zeroYear)) (m - 1) := by
    rw [isLeap_eq]; unfold before
    by_cases hl : leap (y + zeroYear) = true
    · by_cases h3 : m ≥ 3
      · rw [if_pos ⟨hl, h3⟩, if_pos ⟨hl, by omega⟩]; push_cast; omega
      · rw [if_neg (fun h => h3 h.2), if_neg (fun h => h3 (by omega))]; push_cast; omega
    · rw [if_neg (fun h => hl h.1), if_neg (fun h => hl h.1)]; push_cast; omega
  generalize (if isLeap (y + zeroYear) = true ∧ m ≥ 3 then daysSinceEpoch (y + zeroYear) + daysBefore (m - 1) + 1
      else daysSinceEpoch (y + zeroYear) + daysBefore (m - 1) : Nat) = D at hD
  have hlt : D * 86400 % 2 ^ 64 = D * 86400 := Nat.mod_eq_of_lt (by omega)
  rw [hlt]
  have hw : wrap64 (((D * 86400 : Nat) : Int) - internalToAbsolute - unixToInternal) = ms (y + zeroYear) m := by
    rw [wrap64_of_in (by unfold InInt64; omega)]; omega
  rw [hw]
  simp only [ofUnix, Time.unix]
  exact wrap64_sub_wrap64 (by unfold InInt64; omega)

/-- The year and the day of the year of a time in range. -/
theorem date_spec (c : Calendar ys ms) {sec : Int} (hs : InInt64 sec) (hr : 0 ≤ sec + unixToInternal + internalToAbsolute) :
    ∃ y : Nat, (absYear (ofUnix sec).abs).1 = y + zeroYear ∧
      ys (y + zeroYear) + 86400 * (absYear (ofUnix sec).abs).2 ≤ sec ∧
      sec < ys (y + zeroYear) + 86400 * ((absYear (ofUnix sec).abs).2 + 1) ∧
      ((absYear (ofUnix sec).abs).2 : Int) < yearDays (y + zeroYear) := by
  have ha : ((ofUnix sec).abs : Int) = sec + (unixToInternal + internalToAbsolute) := by
    have hK1 := unixToInternal_eq
    have hK2 := internalToAbsolute_eq
    simp only [Time.abs, Time.unix, ofUnix]
    rw [wrap64_sub_wrap64 hs]
    unfold InInt64 at hs
    omega
  obtain ⟨y, h1, h2, h3⟩ := absYear_spec (ofUnix sec).abs
  refine ⟨y, h1, ?_, ?_, h3⟩ <;> rw [ys_eq c] <;> omega

theorem truncateYear_eq (c : Calendar ys ms) {sec : Int} (hs : InInt64 sec)
    (hr : 0 ≤ sec + unixToInternal + internalToAbsolute) :
    ∃ y, truncateYear sec = ys y ∧ ys y ≤ sec ∧ sec < ys (y + 1) := by
  obtain ⟨y, h1, h2, h3, h4⟩ := date_spec c hs hr
  have hle : ys (y + zeroYear) ≤ sec := by omega
  refine ⟨y + zeroYear, ?_, hle, ?_⟩
  · unfold truncateYear
    rw [h1, dateUnix_eq c hs y 1 (by omega) (by omega) (by rw [c.jan]; exact hle), c.jan]
  · rw [c.year]; omega

theorem truncateMonth_eq (c : Calendar ys ms) {sec : Int} (hs : InInt64 sec)
    (hr : 0 ≤ sec + unixToInternal + internalToAbsolute) :
    ∃ y m, 1 ≤ m ∧ m ≤ 12 ∧ truncateMonth sec = ms y m ∧ ms y m ≤ sec ∧ sec < ms y (m + 1) := by
  obtain ⟨y, h1, h2, h3, h4⟩ := date_spec c hs hr
  generalize hd : (absYear (ofUnix sec).abs).2 = d at h2 h3 h4
  have hdl : d < if leap (y + zeroYear) = true then 366 else 365 := by
    rw [leap_iff] at h4
    by_cases hl : leap (y + zeroYear) = true
    · rw [if_pos hl] at h4 ⊢; omega
    · rw [if_neg hl] at h4 ⊢; omega
  obtain ⟨m1, m2, m3, m4⟩ := monthOfDay_spec (leap (y + zeroYear)) d hdl
  generalize hm : monthOfDay (leap (y + zeroYear)) d = m at m1 m2 m3 m4
  have e1 := ms_eq c (y + zeroYear) (m - 1) (by omega)
  rw [Nat.sub_add_cancel m1] at e1
  have e2 := ms_eq c (y + zeroYear) m (by omega)
  have hle : ms (y + zeroYear) m ≤ sec := by omega
  refine ⟨y + zeroYear, m, m1, m2, ?_, hle, by omega⟩
  simp only [truncateMonth]
  rw [h1, hd, isLeap_eq, hm]
  exact dateUnix_eq c hs y m m1 m2 hle

/-- The closed form is a calendar, so there is one. -/
theorem calendar_exists : ∃ (ys : Int → Int) (ms : Int → Nat → Int), Calendar ys ms := by
  refine ⟨fun y => 86400 * days (y - zeroYear) - (unixToInternal + internalToAbsolute),
    fun y m => 86400 * days (y - zeroYear) - (unixToInternal + internalToAbsolute) + 86400 * before (leap y) (m - 1),
    by decide, ?_, ?_, ?_⟩
  · intro y
    have := days_succ (y - zeroYear)
    rw [show y - zeroYear + 1 = y + 1 - zeroYear by ring, Int.sub_add_cancel] at this
    simp only [this]; ring
  · intro y; simp [before, daysBefore]
  · intro y m h1 h2
    have : (before (leap y) m : Int) = before (leap y) (m - 1) + monthDays y m := by
      unfold monthDays before
      generalize leap y = l
      interval_cases m <;> cases l <;> rfl
    simp only [Nat.add_sub_cancel, this]; ring

end Verif.Trunc
