import Verif.ConvReg.Model
import Verif.ConvFloat.Model
import Verif.ConvUtf8.Model
/-!
# Model of `typex/convx/init.go`: the converters there are at the start

The types of a program are the ones `init` names, further concrete types and interface types. A generic function used at a type its
constraint does not admit would not compile; it is `none` here.
-/
namespace Verif.ConvInit
open Verif.ConvNum Verif.ConvFloat Verif.ConvUtf8 Verif.ConvReg

/-- The types named in init.go. -/
inductive B where
  | int8 | int16 | int32 | int64 | int | uint8 | uint16 | uint32 | uint64 | uint | float32 | float64
  | string | bool | bytes | runes
  deriving DecidableEq

/-- The rest of the program and the platform. -/
structure Env where
  /-- the width of `int` and `uint` -/
  bits : Nat
  hbits : bits = 32 ∨ bits = 64
  S : Strconv
  /-- floats that do not fit an integer type -/
  impl : IntTy → Flt → Int
  /-- other concrete types, their values, interface types -/
  Usr : Type
  [decU : DecidableEq Usr]
  UVal : Usr → Type
  uzero : ∀ u, UVal u
  Ifc : Type
  [decI : DecidableEq Ifc]

attribute [instance] Env.decU Env.decI

inductive Kind where
  | int (t : IntTy)
  | flt (F : Fmt)
  | str | bool | bytes | runes

/-- The values of a kind. -/
def KVal : Kind → Type
  | .int _ => Int
  | .flt _ => Flt
  | .str => List UInt8
  | .bool => Bool
  | .bytes => List UInt8
  | .runes => List Int

def kind (E : Env) : B → Kind
  | .int8 => .int ⟨true, 8⟩
  | .int16 => .int ⟨true, 16⟩
  | .int32 => .int ⟨true, 32⟩
  | .int64 => .int ⟨true, 64⟩
  | .int => .int ⟨true, E.bits⟩
  | .uint8 => .int ⟨false, 8⟩
  | .uint16 => .int ⟨false, 16⟩
  | .uint32 => .int ⟨false, 32⟩
  | .uint64 => .int ⟨false, 64⟩
  | .uint => .int ⟨false, E.bits⟩
  | .float32 => .flt f32
  | .float64 => .flt f64
  | .string => .str
  | .bool => .bool
  | .bytes => .bytes
  | .runes => .runes

abbrev Val (E : Env) (T : B) : Type := KVal (kind E T)

def kzero : (k : Kind) → KVal k
  | .int _ => (0 : Int)
  | .flt _ => Flt.fin false 0
  | .str => ([] : List UInt8)
  | .bool => false
  | .bytes => ([] : List UInt8)
  | .runes => ([] : List Int)

/-- The types and values of the program. -/
def univ (E : Env) : Univ where
  Ty := B ⊕ (E.Usr ⊕ E.Ifc)
  iface
    | .inr (.inr _) => true
    | _ => false
  Dyn := (Σ T : B, Val E T) ⊕ (Σ u : E.Usr, E.UVal u)
  dyn
    | .inl v => .inl v.1
    | .inr v => .inr (.inl v.1)
  dyn_concrete v := by cases v <;> rfl
  zero T h := match T, h with
    | .inl T, _ => .inl ⟨T, kzero _⟩
    | .inr (.inl u), _ => .inr ⟨u, E.uzero u⟩
  zero_dyn T h := by
    match T, h with
    | .inl T, _ => rfl
    | .inr (.inl u), _ => rfl

/-- A type of init.go as a type of the program. -/
def ty (E : Env) (T : B) : (univ E).Ty := .inl T

/-- A value of a type of init.go, as `any`. -/
def box (E : Env) (T : B) (x : Val E T) : (univ E).Dyn := .inl ⟨T, x⟩

/-- A typed function as a function of values. -/
def lift (E : Env) (T R : B) (f : Val E T → Val E R) : Value (univ E) → Value (univ E)
  | some (.inl v) => if h : v.1 = T then some (box E R (f (h ▸ v.2))) else none
  | _ => none

/-- `Register(f)` for a `func(T) R`. -/
def reg (E : Env) (T R : B) (f : Option (Val E T → Val E R)) : Op (univ E) := .reg (ty E T) (ty E R) (f.map (lift E T R))

/-- converters.go:9-11. -/
def numConv (E : Env) : (k k' : Kind) → Option (KVal k → KVal k')
  | .int t, .int r => some (ConvNum.integerToInteger t r)
  | .int _, .flt F => some (integerToFloat F)
  | .flt _, .int r => some (floatToInteger r (E.impl r))
  | .flt _, .flt F => some (floatToFloat F)
  | _, _ => none

def integerToInteger (E : Env) (T R : B) : Option (Val E T → Val E R) := numConv E (kind E T) (kind E R)

/-- converters.go:13-15, 17-19, 21-23: the constraints are Signed, Unsigned, Float. -/
def kIntToString : (k : Kind) → Option (KVal k → List UInt8)
  | .int t => if t.signed then some (ConvNum.intToString t) else none
  | _ => none

def kUintToString : (k : Kind) → Option (KVal k → List UInt8)
  | .int t => if t.signed then none else some (ConvNum.uintToString t)
  | _ => none

def kFloatToString (E : Env) : (k : Kind) → Option (KVal k → List UInt8)
  | .flt F => some (ConvFloat.floatToString E.S F)
  | _ => none

def intToString (E : Env) (T : B) : Option (Val E T → Val E .string) := kIntToString (kind E T)
def uintToString (E : Env) (T : B) : Option (Val E T → Val E .string) := kUintToString (kind E T)
def floatToString (E : Env) (T : B) : Option (Val E T → Val E .string) := kFloatToString E (kind E T)

/-- converters.go:25-28, 30-33, 35-38: the constraints are Integer, Unsigned, Float. -/
def kStringToInteger : (k : Kind) → Option (List UInt8 → KVal k)
  | .int t => some (ConvNum.stringToInteger t)
  | _ => none

def kStringToUinteger : (k : Kind) → Option (List UInt8 → KVal k)
  | .int t => if t.signed then none else some (ConvNum.stringToUinteger t)
  | _ => none

def kStringToFloat (E : Env) : (k : Kind) → Option (List UInt8 → KVal k)
  | .flt F => some (ConvFloat.stringToFloat E.S F)
  | _ => none

def stringToInteger (E : Env) (R : B) : Option (Val E .string → Val E R) := kStringToInteger (kind E R)
def stringToUinteger (E : Env) (R : B) : Option (Val E .string → Val E R) := kStringToUinteger (kind E R)
def stringToFloat (E : Env) (R : B) : Option (Val E .string → Val E R) := kStringToFloat E (kind E R)

/-- converters.go:49-54, 60-65, 56-58, 67-69: the constraints are Integer, Float, Integer, Float. -/
def kBoolToInteger : (k : Kind) → Option (Bool → KVal k)
  | .int t => some (ConvNum.boolToInteger t)
  | _ => none

def kBoolToFloat : (k : Kind) → Option (Bool → KVal k)
  | .flt F => some (ConvFloat.boolToFloat F)
  | _ => none

def kIntToBool : (k : Kind) → Option (KVal k → Bool)
  | .int t => some (ConvNum.intToBool t)
  | _ => none

def kFloatToBool : (k : Kind) → Option (KVal k → Bool)
  | .flt _ => some ConvFloat.floatToBool
  | _ => none

def boolToInteger (E : Env) (R : B) : Option (Val E .bool → Val E R) := kBoolToInteger (kind E R)
def boolToFloat (E : Env) (R : B) : Option (Val E .bool → Val E R) := kBoolToFloat (kind E R)
def intToBool (E : Env) (T : B) : Option (Val E T → Val E .bool) := kIntToBool (kind E T)
def floatToBool (E : Env) (T : B) : Option (Val E T → Val E .bool) := kFloatToBool (kind E T)

/-- converters.go:40-42. -/
def boolToString (E : Env) : Val E .bool → Val E .string := ConvNum.boolToString
/-- converters.go:44-47. -/
def stringToBool (E : Env) : Val E .string → Val E .bool := ConvNum.stringToBool
/-- converters.go:71-73. -/
def stringToString (E : Env) : Val E .string → Val E .string := fun s => s
/-- converters.go:75-77. -/
def boolToBool (E : Env) : Val E .bool → Val E .bool := fun b => b
/-- converters.go:79-81. -/
def stringToBytes (E : Env) : Val E .string → Val E .bytes := ConvUtf8.stringToBytes
/-- converters.go:83-85. -/
def bytesToString (E : Env) : Val E .bytes → Val E .string := ConvUtf8.bytesToString
/-- converters.go:87-89. -/
def bytesToBytes (E : Env) : Val E .bytes → Val E .bytes := fun b => b
/-- converters.go:91-93. -/
def stringToRunes (E : Env) : Val E .string → Val E .runes := ConvUtf8.stringToRunes
/-- converters.go:95-97. -/
def runesToString (E : Env) : Val E .runes → Val E .string := ConvUtf8.runesToString
/-- converters.go:99-101. -/
def runesToRunes (E : Env) : Val E .runes → Val E .runes := fun r => r

/-- init.go:3-206. -/
def init (E : Env) : List (Op (univ E)) := [
  reg E .int8 .int8 (integerToInteger E .int8 .int8),
  reg E .int8 .int16 (integerToInteger E .int8 .int16),
  reg E .int8 .int32 (integerToInteger E .int8 .int32),
  reg E .int8 .int64 (integerToInteger E .int8 .int64),
  reg E .int8 .int (integerToInteger E .int8 .int),
  reg E .int8 .uint8 (integerToInteger E .int8 .uint8),
  reg E .int8 .uint16 (integerToInteger E .int8 .uint16),
  reg E .int8 .uint32 (integerToInteger E .int8 .uint32),
  reg E .int8 .uint64 (integerToInteger E .int8 .uint64),
  reg E .int8 .uint (integerToInteger E .int8 .uint),
  reg E .int8 .float32 (integerToInteger E .int8 .float32),
  reg E .int8 .float64 (integerToInteger E .int8 .float64),
  reg E .int16 .int8 (integerToInteger E .int16 .int8),
  reg E .int16 .int16 (integerToInteger E .int16 .int16),
  reg E .int16 .int32 (integerToInteger E .int16 .int32),
  reg E .int16 .int64 (integerToInteger E .int16 .int64),
  reg E .int16 .int (integerToInteger E .int16 .int),
  reg E .int16 .uint8 (integerToInteger E .int16 .uint8),
  reg E .int16 .uint16 (integerToInteger E .int16 .uint16),
  reg E .int16 .uint32 (integerToInteger E .int16 .uint32),
  reg E .int16 .uint64 (integerToInteger E .int16 .uint64),
  reg E .int16 .uint (integerToInteger E .int16 .uint),
  reg E .int16 .float32 (integerToInteger E .int16 .float32),
  reg E .int16 .float64 (integerToInteger E .int16 .float64),
  reg E .int32 .int8 (integerToInteger E .int32 .int8),
  reg E .int32 .int16 (integerToInteger E .int32 .int16),
  reg E .int32 .int32 (integerToInteger E .int32 .int32),
  reg E .int32 .int64 (integerToInteger E .int32 .int64),
  reg E .int32 .int (integerToInteger E .int32 .int),
  reg E .int32 .uint8 (integerToInteger E .int32 .uint8),
  reg E .int32 .uint16 (integerToInteger E .int32 .uint16),
  reg E .int32 .uint32 (integerToInteger E .int32 .uint32),
  reg E .int32 .uint64 (integerToInteger E .int32 .uint64),
  reg E .int32 .uint (integerToInteger E .int32 .uint),
  reg E .int32 .float32 (integerToInteger E .int32 .float32),
  reg E .int32 .float64 (integerToInteger E .int32 .float64),
  reg E .int64 .int8 (integerToInteger E .int64 .int8),
  reg E .int64 .int16 (integerToInteger E .int64 .int16),
  reg E .int64 .int32 (integerToInteger E .int64 .int32),
  reg E .int64 .int64 (integerToInteger E .int64 .int64),
  reg E .int64 .int (integerToInteger E .int64 .int),
  reg E .int64 .uint8 (integerToInteger E .int64 .uint8),
  reg E .int64 .uint16 (integerToInteger E .int64 .uint16),
  reg E .int64 .uint32 (integerToInteger E .int64 .uint32),
  reg E .int64 .uint64 (integerToInteger E .int64 .uint64),
  reg E .int64 .uint (integerToInteger E .int64 .uint),
  reg E .int64 .float32 (integerToInteger E .int64 .float32),
  reg E .int64 .float64 (integerToInteger E .int64 .float64),
  reg E .int .int8 (integerToInteger E .int .int8),
  reg E .int .int16 (integerToInteger E .int .int16),
  reg E .int .int32 (integerToInteger E .int .int32),
  reg E .int .int64 (integerToInteger E .int .int64),
  reg E .int .int (integerToInteger E .int .int),
  reg E .int .uint8 (integerToInteger E .int .uint8),
  reg E .int .uint16 (integerToInteger E .int .uint16),
  reg E .int .uint32 (integerToInteger E .int .uint32),
  reg E .int .uint64 (integerToInteger E .int .uint64),
  reg E .int .uint (integerToInteger E .int .uint),
  reg E .int .float32 (integerToInteger E .int .float32),
  reg E .int .float64 (integerToInteger E .int .float64),
  reg E .uint8 .int8 (integerToInteger E .uint8 .int8),
  reg E .uint8 .int16 (integerToInteger E .uint8 .int16),
  reg E .uint8 .int32 (integerToInteger E .uint8 .int32),
  reg E .uint8 .int64 (integerToInteger E .uint8 .int64),
  reg E .uint8 .int (integerToInteger E .uint8 .int),
  reg E .uint8 .uint8 (integerToInteger E .uint8 .uint8),
  reg E .uint8 .uint16 (integerToInteger E .uint8 .uint16),
  reg E .uint8 .uint32 (integerToInteger E .uint8 .uint32),
  reg E .uint8 .uint64 (integerToInteger E .uint8 .uint64),
  reg E .uint8 .uint (integerToInteger E .uint8 .uint),
  reg E .uint8 .float32 (integerToInteger E .uint8 .float32),
  reg E .uint8 .float64 (integerToInteger E .uint8 .float64),
  reg E .uint16 .int8 (integerToInteger E .uint16 .int8),
  reg E .uint16 .int16 (integerToInteger E .uint16 .int16),
  reg E .uint16 .int32 (integerToInteger E .uint16 .int32),
  reg E .uint16 .int64 (integerToInteger E .uint16 .int64),
  reg E .uint16 .int (integerToInteger E .uint16 .int),
  reg E .uint16 .uint8 (integerToInteger E .uint16 .uint8),
  reg E .uint16 .uint16 (integerToInteger E .uint16 .uint16),
  reg E .uint16 .uint32 (integerToInteger E .uint16 .uint32),
  reg E .uint16 .uint64 (integerToInteger E .uint16 .uint64),
  reg E .uint16 .uint (integerToInteger E .uint16 .uint),
  reg E .uint16 .float32 (integerToInteger E .uint16 .float32),
  reg E .uint16 .float64 (integerToInteger E .uint16 .float64),
  reg E .uint32 .int8 (integerToInteger E .uint32 .int8),
  reg E .uint32 .int16 (integerToInteger E .uint32 .int16),
  reg E .uint32 .int32 (integerToInteger E .uint32 .int32),
  reg E .uint32 .int64 (integerToInteger E .uint32 .int64),
  reg E .uint32 .int (integerToInteger E .uint32 .int),
  reg E .uint32 .uint8 (integerToInteger E .uint32 .uint8),
  reg E .uint32 .uint16 (integerToInteger E .uint32 .uint16),
  reg E .uint32 .uint32 (integerToInteger E .uint32 .uint32),
  reg E .uint32 .uint64 (integerToInteger E .uint32 .uint64),
  reg E .uint32 .uint (integerToInteger E .uint32 .uint),
  reg E .uint32 .float32 (integerToInteger E .uint32 .float32),
  reg E .uint32 .float64 (integerToInteger E .uint32 .float64),
  reg E .uint64 .int8 (integerToInteger E .uint64 .int8),
  reg E .uint64 .int16 (integerToInteger E .uint64 .int16),
  reg E .uint64 .int32 (integerToInteger E .uint64 .int32),
  reg E .uint64 .int64 (integerToInteger E .uint64 .int64),
  reg E .uint64 .int (integerToInteger E .uint64 .int),
  reg E .uint64 .uint8 (integerToInteger E .uint64 .uint8),
  reg E .uint64 .uint16 (integerToInteger E .uint64 .uint16),
  reg E .uint64 .uint32 (integerToInteger E .uint64 .uint32),
  reg E .uint64 .uint64 (integerToInteger E .uint64 .uint64),
  reg E .uint64 .uint (integerToInteger E .uint64 .uint),
  reg E .uint64 .float32 (integerToInteger E .uint64 .float32),
  reg E .uint64 .float64 (integerToInteger E .uint64 .float64),
  reg E .uint .int8 (integerToInteger E .uint .int8),
  reg E .uint .int16 (integerToInteger E .uint .int16),
  reg E .uint .int32 (integerToInteger E .uint .int32),
  reg E .uint .int64 (integerToInteger E .uint .int64),
  reg E .uint .int (integerToInteger E .uint .int),
  reg E .uint .uint8 (integerToInteger E .uint .uint8),
  reg E .uint .uint16 (integerToInteger E .uint .uint16),
  reg E .uint .uint32 (integerToInteger E .uint .uint32),
  reg E .uint .uint64 (integerToInteger E .uint .uint64),
  reg E .uint .uint (integerToInteger E .uint .uint),
  reg E .uint .float32 (integerToInteger E .uint .float32),
  reg E .uint .float64 (integerToInteger E .uint .float64),
  reg E .float32 .int8 (integerToInteger E .float32 .int8),
  reg E .float32 .int16 (integerToInteger E .float32 .int16),
  reg E .float32 .int32 (integerToInteger E .float32 .int32),
  reg E .float32 .int64 (integerToInteger E .float32 .int64),
  reg E .float32 .int (integerToInteger E .float32 .int),
  reg E .float32 .uint8 (integerToInteger E .float32 .uint8),
  reg E .float32 .uint16 (integerToInteger E .float32 .uint16),
  reg E .float32 .uint32 (integerToInteger E .float32 .uint32),
  reg E .float32 .uint64 (integerToInteger E .float32 .uint64),
  reg E .float32 .uint (integerToInteger E .float32 .uint),
  reg E .float32 .float32 (integerToInteger E .float32 .float32),
  reg E .float32 .float64 (integerToInteger E .float32 .float64),
  reg E .float64 .int8 (integerToInteger E .float64 .int8),
  reg E .float64 .int16 (integerToInteger E .float64 .int16),
  reg E .float64 .int32 (integerToInteger E .float64 .int32),
  reg E .float64 .int64 (integerToInteger E .float64 .int64),
  reg E .float64 .int (integerToInteger E .float64 .int),
  reg E .float64 .uint8 (integerToInteger E .float64 .uint8),
  reg E .float64 .uint16 (integerToInteger E .float64 .uint16),
  reg E .float64 .uint32 (integerToInteger E .float64 .uint32),
  reg E .float64 .uint64 (integerToInteger E .float64 .uint64),
  reg E .float64 .uint (integerToInteger E .float64 .uint),
  reg E .float64 .float32 (integerToInteger E .float64 .float32),
  reg E .float64 .float64 (integerToInteger E .float64 .float64),
  reg E .string .int8 (stringToInteger E .int8),
  reg E .string .int16 (stringToInteger E .int16),
  reg E .string .int32 (stringToInteger E .int32),
  reg E .string .int64 (stringToInteger E .int64),
  reg E .string .int (stringToInteger E .int),
  reg E .string .uint8 (stringToUinteger E .uint8),
  reg E .string .uint16 (stringToUinteger E .uint16),
  reg E .string .uint32 (stringToUinteger E .uint32),
  reg E .string .uint64 (stringToUinteger E .uint64),
  reg E .string .uint (stringToUinteger E .uint),
  reg E .string .float32 (stringToFloat E .float32),
  reg E .string .float64 (stringToFloat E .float64),
  reg E .int8 .string (intToString E .int8),
  reg E .int16 .string (intToString E .int16),
  reg E .int32 .string (intToString E .int32),
  reg E .int64 .string (intToString E .int64),
  reg E .int .string (intToString E .int),
  reg E .uint8 .string (uintToString E .uint8),
  reg E .uint16 .string (uintToString E .uint16),
  reg E .uint32 .string (uintToString E .uint32),
  reg E .uint64 .string (uintToString E .uint64),
  reg E .uint .string (uintToString E .uint),
  reg E .float32 .string (floatToString E .float32),
  reg E .float64 .string (floatToString E .float64),
  reg E .bool .int8 (boolToInteger E .int8),
  reg E .bool .int16 (boolToInteger E .int16),
  reg E .bool .int32 (boolToInteger E .int32),
  reg E .bool .int64 (boolToInteger E .int64),
  reg E .bool .int (boolToInteger E .int),
  reg E .bool .uint8 (boolToInteger E .uint8),
  reg E .bool .uint16 (boolToInteger E .uint16),
  reg E .bool .uint32 (boolToInteger E .uint32),
  reg E .bool .uint64 (boolToInteger E .uint64),
  reg E .bool .uint (boolToInteger E .uint),
  reg E .bool .float32 (boolToFloat E .float32),
  reg E .bool .float64 (boolToFloat E .float64),
  reg E .bool .string (some (boolToString E)),
  reg E .int8 .bool (intToBool E .int8),
  reg E .int16 .bool (intToBool E .int16),
  reg E .int32 .bool (intToBool E .int32),
  reg E .int64 .bool (intToBool E .int64),
  reg E .int .bool (intToBool E .int),
  reg E .uint8 .bool (intToBool E .uint8),
  reg E .uint16 .bool (intToBool E .uint16),
  reg E .uint32 .bool (intToBool E .uint32),
  reg E .uint64 .bool (intToBool E .uint64),
  reg E .uint .bool (intToBool E .uint),
  reg E .float32 .bool (floatToBool E .float32),
  reg E .float64 .bool (floatToBool E .float64),
  reg E .string .bool (some (stringToBool E)),
  reg E .string .string (some (stringToString E)),
  reg E .bool .bool (some (boolToBool E)),
  reg E .string .bytes (some (stringToBytes E)),
  reg E .bytes .string (some (bytesToString E)),
  reg E .bytes .bytes (some (bytesToBytes E)),
  reg E .string .runes (some (stringToRunes E)),
  reg E .runes .string (some (runesToString E)),
  reg E .runes .runes (some (runesToRunes E))]

end Verif.ConvInit
