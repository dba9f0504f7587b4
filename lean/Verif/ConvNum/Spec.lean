import Verif.ConvNum.Model
/-!
# What integers, numerals and their values are
-/
namespace Verif.ConvNum

/-- The values of an integer type. -/
def InTy (t : IntTy) (i : Int) : Prop :=
  if t.signed then -2 ^ (t.bits - 1) ≤ i ∧ i < 2 ^ (t.bits - 1) else 0 ≤ i ∧ i < 2 ^ t.bits

def IsDigit (c : UInt8) : Prop := 48 ≤ c.toNat ∧ c.toNat ≤ 57

instance (c : UInt8) : Decidable (IsDigit c) := inferInstanceAs (Decidable (_ ∧ _))

/-- The value of a list of digits, the first being the most significant. -/
def value (s : List UInt8) : Nat := s.foldl (fun v c => v * 10 + (c.toNat - 48)) 0

/-- An unsigned numeral. -/
def Numeral (s : List UInt8) (v : Nat) : Prop := s ≠ [] ∧ (∀ c ∈ s, IsDigit c) ∧ value s = v

/-- A numeral with an optional sign. -/
def SNumeral (s : List UInt8) (v : Int) : Prop :=
  (∃ n, Numeral s n ∧ v = n) ∨ (∃ t n, s = 43 :: t ∧ Numeral t n ∧ v = n) ∨ (∃ t n, s = 45 :: t ∧ Numeral t n ∧ v = -n)

/-- The canonical numeral of a number: no needless sign or leading zero. -/
def Canonical (s : List UInt8) (x : Int) : Prop :=
  (∃ n : Nat, x = n ∧ Numeral s n ∧ (s.head? = some 48 → s = [48])) ∨
  (∃ (t : List UInt8) (n : Nat), s = 45 :: t ∧ x = -n ∧ n ≠ 0 ∧ Numeral t n ∧ t.head? ≠ some 48)

end Verif.ConvNum
