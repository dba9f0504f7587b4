import Verif.ConvInit.Props
import Verif.ConvNum.Spec
/-!
# Conversions one after the other
-/
namespace Verif.ConvChain
open Verif.Go Verif.ConvNum Verif.ConvFloat Verif.ConvReg Verif.ConvInit

/-- A number as a value of a kind: itself, the float, the canonical numeral. -/
def Holds (i : Int) : (k : Kind) → KVal k → Prop
  | .int _, x => x = i
  | .flt _, x => x = Flt.fin (decide (i < 0)) |(i : ℚ)|
  | .str, x => Canonical x i
  | _, _ => False

/-- The kinds that have the number exactly. -/
def Can (i : Int) : Kind → Prop
  | .int t => InTy t i
  | .flt F => Mag F |(i : ℚ)|
  | .str => True
  | _ => False

def isFloat : Kind → Bool
  | .flt _ => true
  | _ => false

/-- Every type on the way has the number, and no float is written out as a string. -/
def Way (E : Env) (i : Int) : B → List B → Prop
  | T, [] => Can i (kind E T)
  | T, R :: Rs => Can i (kind E T) ∧ ¬ (isFloat (kind E T) = true ∧ R = .string) ∧ Way E i R Rs

/-- `Into[T, R1]`, then `Into[R1, R2]` and so on; ends early if one of them has no converter. -/
def chain (E : Env) (c : Reg (univ E)) : Value (univ E) → B → List B → Outcome (Value (univ E) × Bool)
  | v, _, [] => .ret (v, true)
  | v, T, R :: Rs => (into (U := univ E) (ty E T) (ty E R) v c).bind fun p =>
      if p.2 = true then chain E c p.1 R Rs else .ret p

/-- A program that leaves the built-in converters alone. -/
def Leaves (E : Env) (h : List (Op (univ E))) : Prop :=
  ∀ o ∈ h, ∀ T R : B, ¬ (o.src = ty E T ∧ o.dst = ty E R)

/-- Every value of the first integer type is one of the second. -/
def Sub (t m : IntTy) : Prop := ∀ x, InTy t x → InTy m x

/-- The numeral that the converters of an integer type write. -/
def written (t : IntTy) (x : Int) : List UInt8 := if t.signed then ConvNum.intToString t x else ConvNum.uintToString t x

/-- From one integer type to another through a string; which converters these are: typex/convx/init.go:148-169 (C85). -/
def viaString (t r : IntTy) (x : Int) : Int :=
  if r.signed then ConvNum.stringToInteger r (written t x) else ConvNum.stringToUinteger r (written t x)

/-- The integer that a value of an integer type is. -/
def num : (k : Kind) → KVal k → Option Int
  | .int _, x => some x
  | _, _ => none

end Verif.ConvChain
