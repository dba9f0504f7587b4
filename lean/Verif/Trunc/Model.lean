import Verif.Prelude
import Verif.Go.Basic
/-!
# Model of `timex/truncatex/truncatex.go`

The code is a thin layer over Go's `time` package, so the functions of that package it calls are
modelled too, as they are in the Go release the module names (1.19): `time/time.go` `Unix`,
`Truncate`, `div`, `Add`, `addSec`, `abs`, `absDate`, `Date`, `daysSinceEpoch`, `isLeap`. All times
are UTC. Signed arithmetic wraps with `wrap64`, `uint64` values are natural numbers below `2^64`.
-/
namespace Verif.Trunc
open Verif.Go

/-- A `time.Time` without monotonic reading: seconds since 0001-01-01 and nanoseconds. -/
structure Time where
  ext : Int
  nsec : Int

/-- time.go `unixToInternal`. -/
def unixToInternal : Int := (1969 * 365 + 1969 / 4 - 1969 / 100 + 1969 / 400) * 86400

/-- time.go `Second`. -/
def second : Int := 1000000000

/-- time.go `Unix(sec, 0)`; timex.go:9-11 `Custom(sec, 0)`. -/
def ofUnix (sec : Int) : Time := ⟨wrap64 (sec + unixToInternal), 0⟩

/-- time.go `Time.Unix`. -/
def Time.unix (t : Time) : Int := wrap64 (t.ext - unixToInternal)

/-- time.go `div`, the remainder. Where the duration is neither a divisor nor a multiple of a second
the code divides by repeated subtraction in 128 bits; here it is the remainder itself. -/
def divRem (t : Time) (d : Int) : Int :=
  let neg := decide (t.ext < 0)
  let sec := if neg then wrap64 (-t.ext) else t.ext
  let nsec := if neg then -t.nsec else t.nsec
  let (sec, nsec) := if nsec < 0 then (sec - 1, nsec + 1000000000) else (sec, nsec)
  let r :=
    if d < second ∧ second.tmod (d + d) = 0 then nsec.tmod d
    else if d.tmod second = 0 then
      let d1 := d.tdiv second
      wrap64 (wrap64 (sec.tmod d1 * second) + nsec)
    else (sec % 2 ^ 64 * 1000000000 + nsec) % d
  if neg ∧ r ≠ 0 then d - r else r

/-- time.go `addSec`: saturating. -/
def addSec (ext d : Int) : Int :=
  let sum := wrap64 (ext + d)
  if decide (sum > ext) = decide (d > 0) then sum
  else if d > 0 then 2 ^ 63 - 1
  else -(2 ^ 63 - 1)

/-- time.go `Add`. -/
def Time.add (t : Time) (d : Int) : Time :=
  let dsec := d.tdiv 1000000000
  let nsec := t.nsec + d.tmod 1000000000
  if nsec ≥ 1000000000 then ⟨addSec t.ext (dsec + 1), nsec - 1000000000⟩
  else if nsec < 0 then ⟨addSec t.ext (dsec - 1), nsec + 1000000000⟩
  else ⟨addSec t.ext dsec, nsec⟩

/-- time.go `Truncate`. -/
def Time.truncate (t : Time) (d : Int) : Time := if d ≤ 0 then t else t.add (-(divRem t d))

/-- truncatex.go:40-42 `Truncate`. -/
def truncate (sec n : Int) : Int := ((ofUnix sec).truncate (wrap64 (second * n))).unix

/-- truncatex.go:20-22 `TruncateWeek`. -/
def truncateWeek (sec : Int) : Int := truncate sec (1 * 60 * 60 * 24 * 7)

/-- truncatex.go:24-26 `TruncateDay`. -/
def truncateDay (sec : Int) : Int := truncate sec (1 * 60 * 60 * 24)

/-- truncatex.go:28-30 `TruncateHour`. -/
def truncateHour (sec : Int) : Int := truncate sec (1 * 60 * 60)

/-- truncatex.go:32-34 `TruncateMin`. -/
def truncateMin (sec : Int) : Int := truncate sec (1 * 60)

/-- truncatex.go:36-38 `TruncateSec`. -/
def truncateSec (sec : Int) : Int := truncate sec 1

/-! ## Calendar -/

/-- time.go `absoluteZeroYear`. -/
def zeroYear : Int := -292277022399

/-- time.go `internalToAbsolute`: 292277022400 years of 365.2425 days. -/
def internalToAbsolute : Int := 292277022400 / 400 * 146097 * 86400

/-- time.go `abs`: `uint64(sec + (unixToInternal + internalToAbsolute))`. -/
def Time.abs (t : Time) : Nat := ((t.unix + (unixToInternal + internalToAbsolute)) % 2 ^ 64).toNat

/-- time.go `isLeap`. -/
def isLeap (year : Int) : Bool := year.tmod 4 == 0 && (year.tmod 100 != 0 || year.tmod 400 == 0)

/-- time.go `absDate`, year and day of the year. -/
def absYear (abs : Nat) : Int × Nat :=
  let d := abs / 86400
  let n := d / 146097
  let y := 400 * n
  let d := d - 146097 * n
  let n := d / 36524
  let n := n - n / 4
  let y := y + 100 * n
  let d := d - 36524 * n
  let n := d / 1461
  let y := y + 4 * n
  let d := d - 1461 * n
  let n := d / 365
  let n := n - n / 4
  let y := y + n
  let d := d - 365 * n
  ((y : Int) + zeroYear, d)

/-- time.go `daysBefore`. -/
def daysBefore : Nat → Nat
  | 0 => 0 | 1 => 31 | 2 => 59 | 3 => 90 | 4 => 120 | 5 => 151 | 6 => 181
  | 7 => 212 | 8 => 243 | 9 => 273 | 10 => 304 | 11 => 334 | _ => 365

/-- time.go `absDate`, the month (January is 1) of a day of the year. -/
def monthOfDay (leap : Bool) (yday : Nat) : Nat :=
  if leap ∧ yday = 31 + 29 - 1 then 2
  else
    let day := if leap ∧ yday > 31 + 29 - 1 then yday - 1 else yday
    let month := day / 31
    let month := if day ≥ daysBefore (month + 1) then month + 1 else month
    month + 1

/-- time.go `daysSinceEpoch`. -/
def daysSinceEpoch (year : Int) : Nat :=
  let y := ((year - zeroYear) % 2 ^ 64).toNat
  let n := y / 400
  let y := y - 400 * n
  let d := 146097 * n
  let n := y / 100
  let y := y - 100 * n
  let d := d + 36524 * n
  let n := y / 4
  let y := y - 4 * n
  let d := d + 1461 * n
  d + 365 * y

/-- time.go `Date(year, month, 1, 0, 0, 0, 0, UTC)` for a month in 1..12, then `Unix`. -/
def dateUnix (year : Int) (month : Nat) : Int :=
  let d := daysSinceEpoch year
  let d := d + daysBefore (month - 1)
  let d := if isLeap year ∧ month ≥ 3 then d + 1 else d
  let abs : Nat := d * 86400 % 2 ^ 64
  let unix := wrap64 ((abs : Int) - internalToAbsolute - unixToInternal)
  (ofUnix unix).unix

/-- truncatex.go:9-12 `TruncateYear`. -/
def truncateYear (sec : Int) : Int := dateUnix (absYear (ofUnix sec).abs).1 1

/-- truncatex.go:14-18 `TruncateMonth`. -/
def truncateMonth (sec : Int) : Int :=
  let (year, yday) := absYear (ofUnix sec).abs
  dateUnix year (monthOfDay (isLeap year) yday)

end Verif.Trunc
