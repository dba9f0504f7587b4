import Verif.SklTail.Lemmas
import Mathlib.Analysis.Complex.ExponentialBounds
/-!
# From records to calls
-/
set_option linter.unusedSectionVars false
namespace Verif.SklTail
open Verif.Go Verif.Skl Verif.MapSpec Verif.SklMean

variable {K V : Type} [GoOrdered K] [LawfulOrdered K] [DecidableEq K] [Inhabited K] [Inhabited V]

/-- A call after the beginning `p` of a history of `n` updates. -/
theorem slow_prefix {seed : BitVec 64} {p : List (Op K V)} {M : List (K × Nat)} (m : Made seed p M) {n : Nat} (hn : p.length ≤ n)
    (c : Call K V) (L : Nat) (hL : L ≤ 16) (hL1 : 1 ≤ L) (r : Nat) :
    (3 / 2 : ℚ) ^ r * (Finset.univ.filter fun t : Tosses n => 17 + r ≤ after (run (extend t) (Skl.new seed) p) c).card ≤
      (1 + 1 / 2 ^ L) ^ (M.filter fun x => GoOrdered.lt x.1 c.key).length * 2 ^ (L - 1) * Fintype.card (Tosses n) := by
  have hsub : ((M.filter fun x => GoOrdered.lt x.1 c.key).map Prod.snd).Sublist (M.map Prod.snd) := List.filter_sublist.map _
  obtain ⟨idx, hidx⟩ := fins (n := n) ((M.filter fun x => GoOrdered.lt x.1 c.key).map Prod.snd)
    fun i hi => Nat.lt_of_lt_of_le (m.lt i (hsub.subset hi)) hn
  have hnd : idx.Nodup := by
    have := m.nodup.sublist hsub
    rw [← hidx] at this
    exact this.of_map _
  have hlen : idx.length = (M.filter fun x => GoOrdered.lt x.1 c.key).length := by
    rw [← List.length_map (f := Fin.val), hidx, List.length_map]
  rw [← hlen]
  refine le_trans (mul_le_mul_of_nonneg_left ?_ (by positivity)) (many_records L hL hL1 idx hnd r)
  refine Nat.cast_le.2 (Finset.card_le_card fun t ht => ?_)
  rw [Finset.mem_filter] at ht ⊢
  refine ⟨ht.1, ?_⟩
  have := after_le m (extend t) c
  rw [← hidx, List.map_map] at this
  have e : (idx.map ((fun i => heightOf (extend t i)) ∘ Fin.val)) = idx.map fun i => heightOf (t i) :=
    List.map_congr_left fun i _ => by simp [extend]
  rw [e] at this
  have := ht.2
  omega

theorem made_short {seed : BitVec 64} {p : List (Op K V)} {M : List (K × Nat)} (m : Made seed p M) : M.length ≤ p.length := by
  have h := List.Nodup.length_le_card (α := Fin p.length) (l := (fins _ m.lt).choose) (by
    have := m.nodup
    rw [← (fins _ m.lt).choose_spec] at this
    exact this.of_map _)
  rw [Fintype.card_fin, ← List.length_map (f := Fin.val), (fins _ m.lt).choose_spec, List.length_map] at h
  exact h

/-- `(1 + 1/N)^m < 3` for `m ≤ N`. -/
theorem below_three {N m : Nat} (hN : 0 < N) (hm : m ≤ N) : (1 + 1 / (N : ℚ)) ^ m ≤ 3 := by
  have hN' : (0 : ℝ) < N := by exact_mod_cast hN
  have h : (1 + 1 / (N : ℝ)) ^ m ≤ 3 := by
    calc (1 + 1 / (N : ℝ)) ^ m ≤ (1 + 1 / (N : ℝ)) ^ N := pow_le_pow_right₀ (by
            have : (0 : ℝ) ≤ 1 / N := by positivity
            linarith) hm
      _ ≤ (Real.exp (1 / N)) ^ N := pow_le_pow_left₀ (by positivity) (by rw [add_comm]; exact Real.add_one_le_exp _) _
      _ = Real.exp 1 := by rw [← Real.exp_nat_mul]; congr 1; field_simp
      _ ≤ 3 := by have := Real.exp_one_lt_d9; linarith
  have h' : (((1 + 1 / (N : ℚ)) ^ m : ℚ) : ℝ) ≤ ((3 : ℚ) : ℝ) := by push_cast; exact h
  exact Rat.cast_le.1 h'

end Verif.SklTail
