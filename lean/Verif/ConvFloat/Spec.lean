import Verif.ConvFloat.Model
import Verif.ConvNum.Spec
/-!
# What it means to be the nearest float, and what a decimal is
-/
namespace Verif.ConvFloat
open Verif.ConvNum

/-- The floats of a format. -/
def IsFlt (F : Fmt) : Flt → Prop
  | .fin _ q => Mag F q
  | _ => True

/-- `v` is even: it can be written with one digit less (and not in the lowest place). -/
def EvenMag (F : Fmt) (v : ℚ) : Prop := ∃ (m : Nat) (e : Int), m < 2 ^ (F.p - 1) ∧ F.emin < e ∧ v = m * 2 ^ e

/-- `v` is the magnitude of the format nearest to `q`; of two it is the even one. -/
def Nearest (F : Fmt) (q v : ℚ) : Prop :=
  Mag F v ∧ (∀ w, Mag F w → |v - q| ≤ |w - q|) ∧ (∀ w, Mag F w → w ≠ v → |w - q| = |v - q| → EvenMag F v)

/-- The values the two formats of Go have in common with what is needed below. -/
def Fmt.IsGo (F : Fmt) : Prop := F = f64 ∨ F = f32

/-- IEEE 754: the magnitude of the bit pattern with exponent field `E` (of `w` bits) and fraction field `M` (of `f` bits); the
greatest exponent field is for infinities and NaN. -/
def ieee (w f E M : Nat) : ℚ :=
  if E = 0 then M * (2 : ℚ) ^ (1 - (2 ^ (w - 1) - 1 : Int) - f) else (2 ^ f + M) * (2 : ℚ) ^ ((E : Int) - (2 ^ (w - 1) - 1 : Int) - f)

/-- A decimal without exponent. -/
def Decimal (s : List UInt8) (n : Bool) (q : ℚ) : Prop :=
  ∃ sg ip fp : List UInt8, (sg = [45] ∧ n = true ∨ sg = [43] ∧ n = false ∨ sg = [] ∧ n = false) ∧
    (∀ c ∈ ip, IsDigit c) ∧ (∀ c ∈ fp, IsDigit c) ∧ ip ++ fp ≠ [] ∧
    (s = sg ++ ip ++ 46 :: fp ∨ fp = [] ∧ s = sg ++ ip) ∧ q = value (ip ++ fp) / 10 ^ fp.length

/-- The order of floats other than NaN. -/
def le : Flt → Flt → Prop
  | .nan, _ => False
  | _, .nan => False
  | .inf true, _ => True
  | _, .inf false => True
  | .inf false, _ => False
  | _, .inf true => False
  | .fin n q, .fin n' q' => (if n then -q else q) ≤ (if n' then -q' else q')

end Verif.ConvFloat
