import Verif.PassText.Model
import Verif.ConvNum.Spec
import Verif.PassHash.Spec
/-!
# Reading the text of a record
-/
namespace Verif.PassText
open Verif.Go Verif.PassHash

/-- The names of the algorithms. -/
def names : List String := ["Argon2ID_High", "Argon2ID_Low", "Argon2ID_Mobile_High", "Argon2ID_Mobile_Low"]

/-- A list of bytes written out: numerals in brackets, with single spaces between. -/
inductive Lists : List UInt8 → List UInt8 → Prop where
  | nil : Lists [] (lit "[]")
  | one {b d} : ConvNum.Numeral d b.toNat → Lists [b] (lit "[" ++ d ++ lit "]")
  | cons {b d c l t} : ConvNum.Numeral d b.toNat → Lists (c :: l) (lit "[" ++ t) → Lists (b :: c :: l) (lit "[" ++ d ++ lit " " ++ t)

end Verif.PassText
