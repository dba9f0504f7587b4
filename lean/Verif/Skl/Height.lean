import Verif.Skl.Mix
import Mathlib.SetTheory.Cardinal.Finite
/-!
# How many seeds draw a height of one
-/
namespace Verif.Skl

/-- The height is one exactly if the first number drawn is odd. -/
theorem height_one_iff (s : BitVec 64) : (randHeight s).1 = 1 ↔ mix (s + incrementConstant) &&& 1#64 = 1#64 := by
  have hr : ∀ n seed, n < maxHeight → maxHeight - n ≤ (randHeightLoop n seed).1 := by
    intro n
    induction n with
    | zero => intro seed _; simp [randHeightLoop]
    | succ n ih =>
      intro seed h
      simp only [randHeightLoop]
      split
      · exact Nat.le_refl _
      · exact Nat.le_trans (by omega) (ih _ (by omega))
  have h14 := hr 14 (s + incrementConstant) (by decide)
  have e : randHeight s = if mix (s + incrementConstant) &&& 1#64 = 1#64 then (1, s + incrementConstant)
      else randHeightLoop 14 (s + incrementConstant) := rfl
  rw [e]
  split
  · simp [*]
  · rename_i h
    have : maxHeight - 14 = 2 := rfl
    simp only [h, iff_false]
    omega

/-- Odd words and their halves. -/
def oddEquiv : {x : BitVec 64 // x &&& 1#64 = 1#64} ≃ Fin (2 ^ 63) where
  toFun x := ⟨x.1.toNat / 2, by have := x.1.isLt; omega⟩
  invFun i := ⟨BitVec.ofNat 64 (2 * i.1 + 1), by
    apply BitVec.eq_of_toNat_eq
    have := i.2
    simp only [BitVec.toNat_and, BitVec.toNat_ofNat, Nat.one_mod_two_pow_eq_one.2 (show 0 < 64 by decide), Nat.and_one_is_mod]
    omega⟩
  left_inv x := by
    apply Subtype.ext
    apply BitVec.eq_of_toNat_eq
    have h := congrArg BitVec.toNat x.2
    have := x.1.isLt
    simp only [BitVec.toNat_and, BitVec.toNat_ofNat, Nat.one_mod_two_pow_eq_one.2 (show 0 < 64 by decide), Nat.and_one_is_mod] at h ⊢
    omega
  right_inv i := by
    apply Fin.ext
    have := i.2
    simp only [BitVec.toNat_ofNat]
    omega

theorem card_height_one : Nat.card {s : BitVec 64 // (randHeight s).1 = 1} = 2 ^ 63 := by
  let e1 : BitVec 64 ≃ BitVec 64 := ⟨(· + incrementConstant), (· - incrementConstant), fun x => BitVec.add_sub_cancel x _,
    fun x => BitVec.sub_add_cancel x _⟩
  have e2 : {s : BitVec 64 // (randHeight s).1 = 1} ≃ {x : BitVec 64 // x &&& 1#64 = 1#64} :=
    (e1.trans (Equiv.ofBijective mix mix_bij)).subtypeEquiv fun s => height_one_iff s
  rw [Nat.card_congr (e2.trans oddEquiv), Nat.card_fin]

end Verif.Skl
