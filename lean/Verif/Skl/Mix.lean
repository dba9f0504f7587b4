import Verif.Skl.Lemmas
import Mathlib.Data.Finite.Defs
import Mathlib.Data.Fintype.EquivFin
/-!
# The splitmix64 generator: helper lemmas
-/
namespace Verif.Skl

/-- Distinct words stay distinct under `x ^ (x >> s)`, `s > 0`: bits are recovered from the top. -/
theorem xorshift_inj {w : Nat} (s : Nat) (hs : 0 < s) (x y : BitVec w)
    (h : x ^^^ (x >>> s) = y ^^^ (y >>> s)) : x = y := by
  have key : ∀ n i, w - i ≤ n → x.getLsbD i = y.getLsbD i := by
    intro n
    induction n with
    | zero =>
      intro i hi
      rw [BitVec.getLsbD_of_ge _ _ (by omega), BitVec.getLsbD_of_ge _ _ (by omega)]
    | succ n ih =>
      intro i hi
      by_cases hw : w ≤ i
      · rw [BitVec.getLsbD_of_ge _ _ hw, BitVec.getLsbD_of_ge _ _ hw]
      · have := congrArg (fun z => z.getLsbD i) h
        simp only [BitVec.getLsbD_xor, BitVec.getLsbD_ushiftRight] at this
        rw [ih (s + i) (by omega)] at this
        exact (Bool.xor_right_inj).1 (by rw [Bool.xor_comm, this, Bool.xor_comm])
  exact BitVec.eq_of_getLsbD_eq (fun i _ => key w i (by omega))

/-- Multiplying by a word with an inverse is injective. -/
theorem mul_inj {w : Nat} (c d : BitVec w) (hcd : c * d = 1#w) (x y : BitVec w) (h : x * c = y * c) :
    x = y := by
  have := congrArg (· * d) h
  simp only [BitVec.mul_assoc, hcd, BitVec.mul_one] at this
  exact this

theorem mix_inj (x y : BitVec 64) (h : mix x = mix y) : x = y := by
  unfold mix at h
  simp only at h
  have h := xorshift_inj 31 (by omega) _ _ h
  have h := mul_inj 0x94d049bb133111eb#64 0x319642b2d24d8ec3#64 (by decide) _ _ h
  have h := xorshift_inj 27 (by omega) _ _ h
  have h := mul_inj 0xbf58476d1ce4e5b9#64 0x96de1b173f119089#64 (by decide) _ _ h
  exact xorshift_inj 30 (by omega) _ _ h

theorem mix_bij : Function.Bijective mix := by
  have : Finite (BitVec 64) := Finite.of_injective BitVec.toFin (fun _ _ h => BitVec.eq_of_toFin_eq h)
  exact (Finite.injective_iff_bijective).1 (fun x y => mix_inj x y)

/-- The generator state after `n` draws. -/
def stateAfter (s : BitVec 64) : Nat → BitVec 64
  | 0 => s
  | n + 1 => (splitmix64 (stateAfter s n)).1

theorem stateAfter_eq (s : BitVec 64) (n : Nat) :
    stateAfter s n = s + BitVec.ofNat 64 n * incrementConstant := by
  induction n with
  | zero => simp [stateAfter]
  | succ n ih =>
    rw [stateAfter, splitmix64, ih]
    simp only [BitVec.ofNat_add]
    rw [BitVec.add_mul, BitVec.one_mul, BitVec.add_assoc]

theorem stateAfter_inj (s : BitVec 64) (n m : Nat) (hn : n < 2 ^ 64) (hm : m < 2 ^ 64)
    (h : stateAfter s n = stateAfter s m) : n = m := by
  rw [stateAfter_eq, stateAfter_eq] at h
  have h := (BitVec.add_right_inj s).1 h
  have h := mul_inj incrementConstant 0xf1de83e19937733d#64 (by decide) _ _ h
  have h := congrArg BitVec.toNat h
  simp only [BitVec.toNat_ofNat] at h
  omega

end Verif.Skl
