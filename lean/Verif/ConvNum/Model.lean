import Verif.Prelude
/-!
# Model of `typex/convx/converters.go`: integers, booleans and strings

A string is a list of bytes; an integer is an `Int` in the range of its type. Floats are not modelled. `int` and `uint`
have 32 or 64 bits. The parts of package `strconv` that the file uses are modelled from its documentation and source
(base 10, bit size 64); `FormatInt` and `FormatUint` produce the digits one at a time.
-/
namespace Verif.ConvNum

/-- An integer type. -/
structure IntTy where
  signed : Bool
  bits : Nat

/-- Go's integer types have these widths. -/
def IntTy.IsGo (t : IntTy) : Prop := t.bits = 8 ∨ t.bits = 16 ∨ t.bits = 32 ∨ t.bits = 64

def int64 : IntTy := ⟨true, 64⟩
def uint64 : IntTy := ⟨false, 64⟩

/-- The conversion `T(i)` between integer types: keep the low bits. -/
def conv (t : IntTy) (i : Int) : Int :=
  let r := i % 2 ^ t.bits
  if t.signed ∧ 2 ^ (t.bits - 1) ≤ r then r - 2 ^ t.bits else r

/-- converters.go:9-11, between integer types. -/
def integerToInteger (_ r : IntTy) (i : Int) : Int := conv r i

/-- Decimal digits. -/
def digits (n : Nat) : List UInt8 :=
  if n < 10 then [48 + UInt8.ofNat n] else digits (n / 10) ++ [48 + UInt8.ofNat (n % 10)]
termination_by n

/-- `strconv.FormatUint(i, 10)`. -/
def formatUint (i : Int) : List UInt8 := digits i.toNat

/-- `strconv.FormatInt(i, 10)`: the sign, then the digits of the negation as an unsigned number. -/
def formatInt (i : Int) : List UInt8 :=
  if i < 0 then 45 :: digits (conv uint64 (-i)).toNat else digits i.toNat

/-- converters.go:13-15. -/
def intToString (_t : IntTy) (i : Int) : List UInt8 := formatInt (conv int64 i)

/-- converters.go:17-19. -/
def uintToString (_t : IntTy) (i : Int) : List UInt8 := formatUint (conv uint64 i)

inductive PErr where
  | syntax
  | range
  deriving DecidableEq

/-- The digit a byte stands for, in `strconv.ParseUint`; letters are digits of larger bases. -/
def digit (c : UInt8) : Option Nat :=
  if 48 ≤ c.toNat ∧ c.toNat ≤ 57 then some (c.toNat - 48)
  else if 97 ≤ (c ||| 32).toNat ∧ (c ||| 32).toNat ≤ 122 then some ((c ||| 32).toNat - 97 + 10)
  else none

def maxU : Nat := 2 ^ 64 - 1

/-- `maxUint64/10 + 1`. -/
def cutoff : Nat := maxU / 10 + 1

/-- The loop of `strconv.ParseUint(s, 10, 64)`. -/
def parseLoop : List UInt8 → Nat → Nat × Option PErr
  | [], n => (n, none)
  | c :: s, n =>
    match digit c with
    | none => (0, some .syntax)
    | some d =>
      if d ≥ 10 then (0, some .syntax)
      else if n ≥ cutoff then (maxU, some .range)
      else
        let n := (n * 10) % 2 ^ 64
        let n1 := (n + d) % 2 ^ 64
        if n1 < n ∨ n1 > maxU then (maxU, some .range) else parseLoop s n1

/-- `strconv.ParseUint(s, 10, 64)`. -/
def parseUint (s : List UInt8) : Nat × Option PErr :=
  if s = [] then (0, some .syntax) else parseLoop s 0

/-- `strconv.ParseInt(s, 10, 64)` after the sign was removed. -/
def parseSigned (neg : Bool) (s : List UInt8) : Int × Option PErr :=
  match parseUint s with
  | (_, some .syntax) => (0, some .syntax)
  | (un, e) =>
    if neg = false ∧ un ≥ 2 ^ 63 then (2 ^ 63 - 1, some .range)
    else if neg = true ∧ un > 2 ^ 63 then (-2 ^ 63, some .range)
    else (conv int64 (if neg then -(conv int64 un) else conv int64 un), if e = some .range then none else e)

/-- `strconv.ParseInt(s, 10, 64)`. -/
def parseInt (s : List UInt8) : Int × Option PErr :=
  match s with
  | [] => (0, some .syntax)
  | c :: t => if c = 43 then parseSigned false t else if c = 45 then parseSigned true t else parseSigned false (c :: t)

/-- converters.go:25-28. -/
def stringToInteger (t : IntTy) (s : List UInt8) : Int := conv t (parseInt s).1

/-- converters.go:30-33. -/
def stringToUinteger (t : IntTy) (s : List UInt8) : Int := conv t (parseUint s).1

/-- The bytes of an ASCII string. -/
def ascii (s : String) : List UInt8 := s.toList.map (fun c => UInt8.ofNat c.toNat)

/-- converters.go:40-42, `strconv.FormatBool`. -/
def boolToString (b : Bool) : List UInt8 := if b then ascii "true" else ascii "false"

/-- converters.go:44-47, `strconv.ParseBool`: the strings that mean true; anything else gives false. -/
def stringToBool (s : List UInt8) : Bool :=
  s == ascii "1" || s == ascii "t" || s == ascii "T" || s == ascii "true" || s == ascii "TRUE" || s == ascii "True"

/-- converters.go:49-54. -/
def boolToInteger (t : IntTy) (b : Bool) : Int := if b then conv t 1 else conv t 0

/-- converters.go:56-58. -/
def intToBool (t : IntTy) (i : Int) : Bool := i != conv t 0

end Verif.ConvNum
