import Verif.ConvNum.Model
import Mathlib.Data.Int.Log
import Mathlib.Data.Rat.Floor
/-!
# Model of `typex/convx/converters.go`: floats

A float is NaN, an infinity, or a sign and a rational magnitude. The language's conversions round to the nearest value of the
format, a tie to the even one (IEEE 754, as the Go specification demands); a conversion to an integer type discards the fraction,
and its result is up to the implementation when it does not fit. Strings: see `Strconv`.
-/
namespace Verif.ConvFloat
open Verif.ConvNum

/-- A binary format: the magnitudes are `m * 2 ^ e` with `m < 2 ^ p` and `emin ≤ e ≤ emax`. -/
structure Fmt where
  p : Nat
  emin : Int
  emax : Int

def f64 : Fmt := ⟨53, -1074, 971⟩
def f32 : Fmt := ⟨24, -149, 104⟩

inductive Flt where
  | nan
  | inf (neg : Bool)
  | fin (neg : Bool) (q : ℚ)
  deriving DecidableEq

/-- The nearest integer; of two the even one. -/
def roundEven (q : ℚ) : Int :=
  if q - ⌊q⌋ < 1 / 2 then ⌊q⌋
  else if 1 / 2 < q - ⌊q⌋ then ⌊q⌋ + 1
  else if ⌊q⌋ % 2 = 0 then ⌊q⌋ else ⌊q⌋ + 1

/-- The exponent of the last place of a number: that of its highest bit less the digits, but not below the least exponent. -/
def expo (F : Fmt) (q : ℚ) : Int := max F.emin (Int.log 2 q - F.p + 1)

/-- Round a magnitude, as if exponents were unbounded above. -/
def roundMag (F : Fmt) (q : ℚ) : ℚ := roundEven (q / 2 ^ expo F q) * 2 ^ expo F q

/-- Round a magnitude; what is too large becomes infinite. -/
def toFlt (F : Fmt) (neg : Bool) (q : ℚ) : Flt :=
  if 2 ^ (F.emax + F.p) ≤ roundMag F q then .inf neg else .fin neg (roundMag F q)

/-- converters.go:9-11, from an integer type to a float type. -/
def integerToFloat (F : Fmt) (i : Int) : Flt := toFlt F (decide (i < 0)) |(i : ℚ)|

/-- converters.go:9-11, between float types. -/
def floatToFloat (F : Fmt) : Flt → Flt
  | .nan => .nan
  | .inf n => .inf n
  | .fin n q => toFlt F n q

/-- The range of an integer type. -/
def fits (t : IntTy) (i : Int) : Bool :=
  if t.signed then decide (-2 ^ (t.bits - 1) ≤ i) && decide (i < 2 ^ (t.bits - 1)) else decide (0 ≤ i) && decide (i < 2 ^ t.bits)

/-- converters.go:9-11, from a float type to an integer type. `impl`: what the implementation gives for values that do not fit. -/
def floatToInteger (t : IntTy) (impl : Flt → Int) : Flt → Int
  | .fin n q =>
    let z := if n then -⌊q⌋ else ⌊q⌋
    if fits t z then z else impl (.fin n q)
  | x => impl x

/-- converters.go:60-65. -/
def boolToFloat (_F : Fmt) (b : Bool) : Flt := if b then .fin false 1 else .fin false 0

/-- converters.go:67-69. NaN is different from everything. -/
def floatToBool : Flt → Bool
  | .nan => true
  | .inf _ => true
  | .fin _ q => decide (q ≠ 0)

/-! ## Strings -/

/-- The value of an unsigned decimal: digits, a point or none, digits; at least one digit. -/
def parseMag (s : List UInt8) : Option ℚ :=
  let ip := s.takeWhile (fun c => decide (48 ≤ c.toNat ∧ c.toNat ≤ 57))
  let val (d : List UInt8) : ℚ := (d.foldl (fun v c => v * 10 + (c.toNat - 48)) 0 : Nat)
  match s.dropWhile (fun c => decide (48 ≤ c.toNat ∧ c.toNat ≤ 57)) with
  | [] => if ip = [] then none else some (val ip)
  | c :: fp => if c = 46 ∧ fp.all (fun c => decide (48 ≤ c.toNat ∧ c.toNat ≤ 57)) ∧ ip ++ fp ≠ [] then some (val (ip ++ fp) / 10 ^ fp.length) else none

/-- The sign and the magnitude of a decimal without exponent. -/
def parseDec : List UInt8 → Option (Bool × ℚ)
  | [] => none
  | c :: s => if c = 45 then (parseMag s).map (fun q => (true, q))
    else if c = 43 then (parseMag s).map (fun q => (false, q)) else (parseMag (c :: s)).map (fun q => (false, q))

/-- The magnitudes of a format. -/
def Mag (F : Fmt) (q : ℚ) : Prop := ∃ (m : Nat) (e : Int), m < 2 ^ F.p ∧ F.emin ≤ e ∧ e ≤ F.emax ∧ q = m * 2 ^ e

/-- `strconv.ParseFloat(s, 64)` and `strconv.FormatFloat(x, 'f', -1, 64)`: any two functions that do what the documentation says
about decimals without exponent and about the names of NaN and the infinities. (Exponents, hexadecimal digits, underscores and
syntax errors are left open.) -/
structure Strconv where
  parse : List UInt8 → Flt
  format : Flt → List UInt8
  /-- "ParseFloat returns the nearest floating-point number"; what is too large becomes infinite. -/
  parse_dec : ∀ s n q, parseDec s = some (n, q) → parse s = toFlt f64 n q
  parse_inf : ∀ n, parse (ascii (if n then "-Inf" else "+Inf")) = .inf n
  parse_nan : parse (ascii "NaN") = .nan
  /-- 'f' without exponent, "such that ParseFloat will return f exactly". -/
  format_fin : ∀ n q, Mag f64 q → ∃ q', parseDec (format (.fin n q)) = some (n, q') ∧ toFlt f64 n q' = .fin n q
  format_inf : ∀ n, format (.inf n) = ascii (if n then "-Inf" else "+Inf")
  format_nan : format .nan = ascii "NaN"

/-- converters.go:35-38. -/
def stringToFloat (S : Strconv) (F : Fmt) (s : List UInt8) : Flt := floatToFloat F (S.parse s)

/-- converters.go:21-23. -/
def floatToString (S : Strconv) (_F : Fmt) (x : Flt) : List UInt8 := S.format (floatToFloat f64 x)

end Verif.ConvFloat
