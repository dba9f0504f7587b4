import Verif.Prelude
/-!
# What truncation means
-/
namespace Verif.Trunc

/-- Seconds from 0001-01-01 to 1970-01-01 (UTC, proleptic Gregorian). -/
def epoch : Int := 719162 * 86400

/-- `r` is the greatest time not after `sec` that is a whole number of periods `n` after 0001-01-01. -/
def IsFloor (n sec r : Int) : Prop :=
  r ≤ sec ∧ n ∣ r + epoch ∧ ∀ x, x ≤ sec → n ∣ x + epoch → x ≤ r

/-- The time and the start of its period can both be told as `int64` seconds, the time counted from
0001-01-01 as `time.Time` does and the start of the period as Unix seconds. -/
def Exact (n sec : Int) : Prop := sec + epoch < 2 ^ 63 ∧ ∃ r, IsFloor n sec r ∧ -2 ^ 63 ≤ r

/-- Day of the week of a Unix time, Monday is 0 (1970-01-01 was a Thursday). -/
def weekday (sec : Int) : Int := (sec / 86400 + 3) % 7

/-- The Gregorian leap year rule. -/
def leap (y : Int) : Bool := decide (y % 4 = 0 ∧ (y % 100 ≠ 0 ∨ y % 400 = 0))

/-- Days of the year. -/
def yearDays (y : Int) : Int := if leap y then 366 else 365

/-- Days of the month (January is 1). -/
def monthDays (y : Int) : Nat → Int
  | 1 => 31
  | 2 => if leap y then 29 else 28
  | 3 => 31
  | 4 => 30
  | 5 => 31
  | 6 => 30
  | 7 => 31
  | 8 => 31
  | 9 => 30
  | 10 => 31
  | 11 => 30
  | 12 => 31
  | _ => 0

/-- `ys` and `ms` tell the first second of each year and month: the year 1970 starts at 0, years
follow each other without gap, January starts with the year and months follow each other. There is
one such pair of functions. -/
structure Calendar (ys : Int → Int) (ms : Int → Nat → Int) : Prop where
  epoch : ys 1970 = 0
  year : ∀ y, ys (y + 1) = ys y + 86400 * yearDays y
  jan : ∀ y, ms y 1 = ys y
  month : ∀ y m, 1 ≤ m → m ≤ 12 → ms y (m + 1) = ms y m + 86400 * monthDays y m

end Verif.Trunc
