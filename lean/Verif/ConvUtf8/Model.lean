import Verif.Prelude
/-!
# Model of `typex/convx/converters.go`: strings, bytes and runes

A string is a list of bytes. A rune is an `int32`; any `Int` here. The conversions are those of the language; they are
modelled from the runtime's `decoderune` and `encoderune` (runtime/utf8.go).
-/
namespace Verif.ConvUtf8

/-- `runtime.decoderune`, for a string that is not empty; for bytes below 0x80 the loop over a string
takes the byte itself. The rune and the number of bytes it takes. -/
def decode : List UInt8 → Nat × Nat
  | [] => (0xFFFD, 1)
  | c0 :: t =>
    if c0.toNat < 0x80 then (c0.toNat, 1)
    else if 0xC0 ≤ c0.toNat ∧ c0.toNat < 0xE0 then
      match t with
      | c1 :: _ =>
        if 0x80 ≤ c1.toNat ∧ c1.toNat ≤ 0xBF then
          let r := ((c0.toNat &&& 0x1F) <<< 6) ||| (c1.toNat &&& 0x3F)
          if 0x7F < r then (r, 2) else (0xFFFD, 1)
        else (0xFFFD, 1)
      | [] => (0xFFFD, 1)
    else if 0xE0 ≤ c0.toNat ∧ c0.toNat < 0xF0 then
      match t with
      | c1 :: c2 :: _ =>
        if (0x80 ≤ c1.toNat ∧ c1.toNat ≤ 0xBF) ∧ (0x80 ≤ c2.toNat ∧ c2.toNat ≤ 0xBF) then
          let r := (((c0.toNat &&& 0x0F) <<< 12) ||| ((c1.toNat &&& 0x3F) <<< 6)) ||| (c2.toNat &&& 0x3F)
          if 0x7FF < r ∧ ¬ (0xD800 ≤ r ∧ r ≤ 0xDFFF) then (r, 3) else (0xFFFD, 1)
        else (0xFFFD, 1)
      | _ => (0xFFFD, 1)
    else if 0xF0 ≤ c0.toNat ∧ c0.toNat < 0xF8 then
      match t with
      | c1 :: c2 :: c3 :: _ =>
        if (0x80 ≤ c1.toNat ∧ c1.toNat ≤ 0xBF) ∧ (0x80 ≤ c2.toNat ∧ c2.toNat ≤ 0xBF) ∧ (0x80 ≤ c3.toNat ∧ c3.toNat ≤ 0xBF) then
          let r := ((((c0.toNat &&& 0x07) <<< 18) ||| ((c1.toNat &&& 0x3F) <<< 12)) ||| ((c2.toNat &&& 0x3F) <<< 6)) ||| (c3.toNat &&& 0x3F)
          if 0xFFFF < r ∧ r ≤ 0x10FFFF then (r, 4) else (0xFFFD, 1)
        else (0xFFFD, 1)
      | _ => (0xFFFD, 1)
    else (0xFFFD, 1)

/-- The part of `runtime.encoderune` that writes `r`. -/
def encodeValid (r : Nat) : List UInt8 :=
  if r ≤ 0x7F then [UInt8.ofNat r]
  else if r ≤ 0x7FF then [UInt8.ofNat (0xC0 ||| (r >>> 6)), UInt8.ofNat (0x80 ||| (r &&& 0x3F))]
  else if r ≤ 0xFFFF then
    [UInt8.ofNat (0xE0 ||| (r >>> 12)), UInt8.ofNat (0x80 ||| ((r >>> 6) &&& 0x3F)), UInt8.ofNat (0x80 ||| (r &&& 0x3F))]
  else
    [UInt8.ofNat (0xF0 ||| (r >>> 18)), UInt8.ofNat (0x80 ||| ((r >>> 12) &&& 0x3F)), UInt8.ofNat (0x80 ||| ((r >>> 6) &&& 0x3F)),
      UInt8.ofNat (0x80 ||| (r &&& 0x3F))]

/-- `runtime.encoderune`; `uint32(r)`. -/
def encode (r : Int) : List UInt8 :=
  let i := (r % 2 ^ 32).toNat
  if i > 0x10FFFF ∨ (0xD800 ≤ i ∧ i ≤ 0xDFFF) then encodeValid 0xFFFD else encodeValid i

/-- converters.go:79-81. -/
def stringToBytes (s : List UInt8) : List UInt8 := s

/-- converters.go:83-85. -/
def bytesToString (b : List UInt8) : List UInt8 := b

/-- converters.go:91-93: decode runes until the string is used up. -/
def stringToRunes (s : List UInt8) : List Int :=
  match s with
  | [] => []
  | c :: t => ((decode (c :: t)).1 : Int) :: stringToRunes (t.drop ((decode (c :: t)).2 - 1))
termination_by s.length
decreasing_by simp; omega

/-- converters.go:95-97. -/
def runesToString (rs : List Int) : List UInt8 := rs.flatMap encode

end Verif.ConvUtf8
