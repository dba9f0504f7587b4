import Verif.Trunc.Props
/-!
# Lemmas for C136
-/
namespace Verif.TruncCal
open Verif.Go Verif.Trunc

variable {ys : Int → Int} {ms : Int → Nat → Int}

/-- `x` is the first second of the month that `sec` is in. -/
def Start (ms : Int → Nat → Int) (sec x : Int) : Prop := ∃ y m, 1 ≤ m ∧ m ≤ 12 ∧ x = ms y m ∧ x ≤ sec ∧ sec < ms y (m + 1)

/-- `x` is the first second of the year that `sec` is in. -/
def StartY (ys : Int → Int) (sec x : Int) : Prop := ∃ y, x = ys y ∧ x ≤ sec ∧ sec < ys (y + 1)

theorem start_self {s x : Int} (h : Start ms s x) : Start ms x x := by
  obtain ⟨y, m, a, b, rfl, d, e⟩ := h
  exact ⟨y, m, a, b, rfl, Int.le_refl _, by omega⟩

theorem startY_self {s x : Int} (h : StartY ys s x) : StartY ys x x := by
  obtain ⟨y, rfl, d, e⟩ := h
  exact ⟨y, rfl, Int.le_refl _, by omega⟩

theorem start_mono (c : Calendar ys ms) {s t x z : Int} (h : Start ms s x) (h' : Start ms t z) (hst : s ≤ t) : x ≤ z := by
  obtain ⟨y, m, a, b, rfl, d, e⟩ := h
  obtain ⟨y', m', a', b', rfl, d', e'⟩ := h'
  by_contra hc
  obtain ⟨rfl, rfl⟩ := month_unique c (sec := ms y m) (a := y) (b := y') (m := m) (n := m') a b a' b' ⟨Int.le_refl _, by omega⟩ ⟨by omega, by omega⟩
  exact hc (Int.le_refl _)

theorem startY_mono (c : Calendar ys ms) {s t x z : Int} (h : StartY ys s x) (h' : StartY ys t z) (hst : s ≤ t) : x ≤ z := by
  obtain ⟨y, rfl, d, e⟩ := h
  obtain ⟨y', rfl, d', e'⟩ := h'
  by_contra hc
  obtain rfl := year_unique c (sec := ys y) (a := y) (b := y') ⟨Int.le_refl _, by omega⟩ ⟨by omega, by omega⟩
  exact hc (Int.le_refl _)

theorem year_month (c : Calendar ys ms) {s x z : Int} (h : StartY ys s x) (h' : Start ms s z) : x ≤ z ∧ Start ms x x ∧ StartY ys z x := by
  obtain ⟨y, rfl, d, e⟩ := h
  obtain ⟨y', m', a', b', rfl, d', e'⟩ := h'
  have hy := month_in_year c a' b' ⟨d', e'⟩
  obtain rfl := year_unique c ⟨d, e⟩ hy
  have h1 := ms_mono c y (Nat.le_refl 1) a' (by omega)
  have h2 := ms_mono c y (show 1 ≤ 2 by omega) (show 2 ≤ m' + 1 by omega) (by omega)
  rw [c.jan] at h1
  have h3 := c.month y 1 (by omega) (by omega)
  rw [c.jan] at h3
  have h4 : monthDays y 1 = 31 := rfl
  refine ⟨h1, ⟨y, 1, by omega, by omega, (c.jan y).symm, Int.le_refl _, ?_⟩, ⟨y, rfl, h1, by omega⟩⟩
  show ys y < ms y (1 + 1)
  omega

theorem dvd_month (c : Calendar ys ms) {s x : Int} (h : Start ms s x) : (86400 : Int) ∣ x + epoch := by
  obtain ⟨y, m, a, b, rfl, -, -⟩ := h
  have h1 := ms_eq c y (m - 1) (by omega)
  rw [Nat.sub_add_cancel a] at h1
  have h2 := ys_eq c (y - zeroYear)
  rw [Int.sub_add_cancel, unixToInternal_eq, internalToAbsolute_eq] at h2
  rw [h1, h2, epoch_eq]
  omega

theorem truncateMonth_start (c : Calendar ys ms) {s : Int} (hs : InInt64 s) (hr : firstSecond ≤ s) : Start ms s (truncateMonth s) := by
  obtain ⟨⟨y, m, a, b, d, e, f⟩, -⟩ := C40_month c hs hr
  exact ⟨y, m, a, b, f, by rw [f]; exact d, e⟩

theorem truncateYear_start (c : Calendar ys ms) {s : Int} (hs : InInt64 s) (hr : firstSecond ≤ s) : StartY ys s (truncateYear s) := by
  obtain ⟨⟨y, d, e, f⟩, -⟩ := C40_year c hs hr
  exact ⟨y, f, by rw [f]; exact d, e⟩

theorem start_unique (c : Calendar ys ms) {s x z : Int} (h : Start ms s x) (h' : Start ms s z) : x = z :=
  Int.le_antisymm (start_mono c h h' (Int.le_refl _)) (start_mono c h' h (Int.le_refl _))

theorem startY_unique (c : Calendar ys ms) {s x z : Int} (h : StartY ys s x) (h' : StartY ys s z) : x = z :=
  Int.le_antisymm (startY_mono c h h' (Int.le_refl _)) (startY_mono c h' h (Int.le_refl _))

theorem first_startY (c : Calendar ys ms) : StartY ys firstSecond firstSecond := by
  have h1 := ys_eq c 0
  rw [Int.zero_add, show days 0 = 0 by decide, unixToInternal_eq, internalToAbsolute_eq] at h1
  have h2 := ys_lt c (show zeroYear < zeroYear + 1 by omega)
  have : firstSecond = ys zeroYear := by rw [h1]; decide
  exact ⟨zeroYear, this, Int.le_refl _, by omega⟩

/-- The month that a start of a finer unit is in. -/
theorem start_floor (c : Calendar ys ms) {q s x r : Int} (hq : q ∣ 86400) (h : Start ms s x) (f : IsFloor q s r) :
    Start ms r x ∧ x ≤ r := by
  have hd := Int.dvd_trans hq (dvd_month c h)
  obtain ⟨y, m, a, b, rfl, d, e⟩ := h
  have hl := f.2.2 _ d hd
  have := f.1
  exact ⟨⟨y, m, a, b, rfl, hl, by omega⟩, hl⟩

end Verif.TruncCal
