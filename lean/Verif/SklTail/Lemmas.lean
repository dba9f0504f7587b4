import Verif.SklTail.Spec
import Verif.SklMean.Props
import Mathlib.Algebra.Order.BigOperators.Ring.Finset
import Mathlib.Data.Rat.Defs
import Mathlib.Algebra.Order.Field.Rat
import Mathlib.Tactic.NormNum
import Mathlib.Tactic.FieldSimp
import Mathlib.Tactic.Positivity
/-!
# An exponential moment of the number of records
-/
namespace Verif.SklTail
open Verif.SklMean

/-- The greatest element, at least one. -/
def maxOf (l : List Nat) : Nat := l.foldr max 1

theorem maxOf_pos : ∀ l, 1 ≤ maxOf l
  | [] => Nat.le_refl _
  | _ :: l => Nat.le_trans (maxOf_pos l) (Nat.le_max_right _ _)

theorem maxOf_le {b : Nat} (hb : 1 ≤ b) : ∀ l, maxOf l ≤ b ↔ ∀ a ∈ l, a ≤ b
  | [] => by simp [maxOf, hb]
  | a :: l => by
    have := maxOf_le hb l
    simp only [maxOf, List.foldr_cons, List.mem_cons, forall_eq_or_imp] at this ⊢
    rw [max_le_iff, this]

/-- What is averaged: `3/2` for each record, and what can still come. -/
def weight (L : Nat) (l : List Nat) : ℚ := (3 / 2) ^ records l * 2 ^ (L - maxOf l)

theorem weight_cons (L a : Nat) (ha : 1 ≤ a) (l : List Nat) :
    weight L (a :: l) = (3 / 2) ^ records l * (if maxOf l ≤ a then 3 / 2 * 2 ^ (L - a) else 2 ^ (L - maxOf l)) := by
  have hm : maxOf (a :: l) = max a (maxOf l) := rfl
  unfold weight
  rw [hm]
  simp only [records]
  by_cases h : maxOf l ≤ a
  · rw [if_pos ((maxOf_le ha l).1 h), if_pos h, max_eq_left h, pow_add]
    ring
  · rw [if_neg (fun g => h ((maxOf_le ha l).2 g)), if_neg h, max_eq_right (by omega), zero_add]

/-- How often a height is drawn. -/
def freq (j : Nat) : Nat := if j = 16 then 1 else 2 ^ (15 - j)

theorem sum_height (f : Nat → Nat) : (∑ c : Coins, f (heightOf c)) = ∑ j ∈ Finset.range 16, freq (j + 1) * f (j + 1) := by
  have h1 : ∀ c : Coins, f (heightOf c) = ∑ j ∈ Finset.range 16, (if heightOf c = j + 1 then 1 else 0) * f (j + 1) := fun c => by
    have hp := heightOf_pos c
    have hl := heightOf_le c
    rw [Finset.sum_eq_single (heightOf c - 1)]
    · rw [if_pos (by omega), one_mul, Nat.sub_add_cancel hp]
    · intro b _ hb
      rw [if_neg (by omega), zero_mul]
    · intro h
      exact absurd (Finset.mem_range.2 (by omega)) h
  simp only [h1]
  rw [Finset.sum_comm]
  refine Finset.sum_congr rfl fun j hj => ?_
  have hj := Finset.mem_range.1 hj
  rw [← Finset.sum_mul]
  refine congrArg (· * f (j + 1)) ?_
  by_cases h : j = 15
  · subst h
    rw [show freq (15 + 1) = 1 from rfl, show 15 + 1 = 16 from rfl]
    exact top
  · rw [half (j + 1) (by omega) (by omega), C151_heights (j + 1) (by omega), freq, if_neg (by omega)]

/-- One more node, for all sixteen heights reached so far. -/
theorem one_more (L M : Nat) (hL : L ≤ 16) (hL1 : 1 ≤ L) (hM : M ≤ 16) (hM1 : 1 ≤ M) :
    (∑ c : Coins, if M ≤ heightOf c then 3 * 2 ^ (L - heightOf c) else 2 * 2 ^ (L - M)) * 2 ^ L ≤
      2 * 2 ^ 15 * (2 ^ L + 1) * 2 ^ (L - M) := by
  have h := sum_height fun j => if M ≤ j then 3 * 2 ^ (L - j) else 2 * 2 ^ (L - M)
  rw [h]
  have key : ∀ L < 17, ∀ M < 17, 1 ≤ L → 1 ≤ M →
      (∑ j ∈ Finset.range 16, freq (j + 1) * (if M ≤ j + 1 then 3 * 2 ^ (L - (j + 1)) else 2 * 2 ^ (L - M))) * 2 ^ L ≤
        2 * 2 ^ 15 * (2 ^ L + 1) * 2 ^ (L - M) := by decide +kernel
  exact key L (by omega) M (by omega) hL1 hM1

theorem weight_more (L : Nat) (hL : L ≤ 16) (hL1 : 1 ≤ L) (l : List Nat) (hl : ∀ a ∈ l, a ≤ 16) :
    ∑ c : Coins, weight L (heightOf c :: l) ≤ 2 ^ 15 * (1 + 1 / 2 ^ L) * weight L l := by
  have h := one_more L (maxOf l) hL hL1 ((maxOf_le (by omega) l).2 hl) (maxOf_pos l)
  have h' : ((∑ c : Coins, if maxOf l ≤ heightOf c then (3 : ℚ) * 2 ^ (L - heightOf c) else 2 * 2 ^ (L - maxOf l)) * 2 ^ L ≤
      2 * 2 ^ 15 * (2 ^ L + 1) * 2 ^ (L - maxOf l)) := by exact_mod_cast h
  simp only [weight_cons L _ (heightOf_pos _) l]
  rw [← Finset.mul_sum]
  have e : ∀ c : Coins, (if maxOf l ≤ heightOf c then (3 : ℚ) / 2 * 2 ^ (L - heightOf c) else 2 ^ (L - maxOf l)) =
      (1 / 2) * (if maxOf l ≤ heightOf c then (3 : ℚ) * 2 ^ (L - heightOf c) else 2 * 2 ^ (L - maxOf l)) := fun c => by
    split <;> ring
  simp only [e]
  rw [← Finset.mul_sum]
  unfold weight
  generalize (∑ c : Coins, if maxOf l ≤ heightOf c then (3 : ℚ) * 2 ^ (L - heightOf c) else 2 * 2 ^ (L - maxOf l)) = X at h'
  have hp : (0 : ℚ) < 2 ^ L := by positivity
  have hX : 1 / 2 * X ≤ 2 ^ 15 * (1 + 1 / 2 ^ L) * 2 ^ (L - maxOf l) := by
    have : 2 ^ 15 * (1 + 1 / 2 ^ L) * 2 ^ (L - maxOf l) = (2 * 2 ^ 15 * (2 ^ L + 1) * 2 ^ (L - maxOf l)) / (2 * 2 ^ L : ℚ) := by
      field_simp
    rw [this, le_div_iff₀ (by positivity)]
    linarith
  calc (3 / 2 : ℚ) ^ records l * (1 / 2 * X) ≤ (3 / 2) ^ records l * (2 ^ 15 * (1 + 1 / 2 ^ L) * 2 ^ (L - maxOf l)) :=
        mul_le_mul_of_nonneg_left hX (by positivity)
    _ = _ := by ring

/-- Drawing again at `i` what does not matter otherwise. -/
theorem redraw {ι D : Type} [Fintype ι] [DecidableEq ι] [Fintype D] (i : ι) (G : D → (ι → D) → ℚ)
    (hG : ∀ b t a, G b (Function.update t i a) = G b t) :
    Fintype.card D * ∑ t : ι → D, G (t i) t = ∑ t : ι → D, ∑ a, G a t := by
  have h1 : Fintype.card D * ∑ t : ι → D, G (t i) t = ∑ p : (ι → D) × D, G (p.1 i) p.1 := by
    rw [Fintype.sum_prod_type, Finset.mul_sum]
    exact Finset.sum_congr rfl fun t _ => by simp
  have h2 : ∑ t : ι → D, ∑ a, G a t = ∑ p : (ι → D) × D, G p.2 p.1 := by rw [Fintype.sum_prod_type]
  rw [h1, h2]
  have inv : Function.Involutive fun p : (ι → D) × D => (Function.update p.1 i p.2, p.1 i) := by
    rintro ⟨t, a⟩
    simp
  refine Fintype.sum_equiv inv.toPerm _ _ ?_
  rintro ⟨t, a⟩
  simp [Function.Involutive.toPerm, hG]

/-- The mean of the weight. -/
theorem sum_weight (L : Nat) (hL : L ≤ 16) (hL1 : 1 ≤ L) {n : Nat} : ∀ (idx : List (Fin n)), idx.Nodup →
    ∑ t : Tosses n, weight L (idx.map fun i => heightOf (t i)) ≤
      (1 + 1 / 2 ^ L) ^ idx.length * 2 ^ (L - 1) * Fintype.card (Tosses n)
  | [], _ => by
    simp only [List.map_nil, List.length_nil, pow_zero, one_mul, Finset.sum_const, Finset.card_univ, nsmul_eq_mul]
    simp [weight, records, maxOf]
    rw [mul_comm]
  | i :: rest, hn => by
    obtain ⟨hi, hn⟩ := List.nodup_cons.1 hn
    have ih := sum_weight L hL hL1 rest hn
    have e := redraw (D := Coins) i (fun a (t : Tosses n) => weight L (heightOf a :: rest.map fun i => heightOf (t i))) (fun b t a => by
      rw [low_update heightOf hi])
    have h := Finset.sum_le_sum fun (t : Tosses n) (_ : t ∈ Finset.univ) =>
      weight_more L hL hL1 (rest.map fun i => heightOf (t i)) (fun a ha => by
        obtain ⟨j, _, rfl⟩ := List.mem_map.1 ha
        exact heightOf_le _)
    rw [← e, ← Finset.mul_sum, card_coins] at h
    have h2 : ∑ t : Tosses n, weight L ((i :: rest).map fun i => heightOf (t i)) ≤
        (1 + 1 / 2 ^ L) * ∑ t : Tosses n, weight L (rest.map fun i => heightOf (t i)) := by
      have : (0 : ℚ) < 2 ^ 15 := by positivity
      refine le_of_mul_le_mul_left ?_ this
      rw [← mul_assoc]
      push_cast at h
      exact h
    calc _ ≤ _ := h2
      _ ≤ (1 + 1 / 2 ^ L) * ((1 + 1 / 2 ^ L) ^ rest.length * 2 ^ (L - 1) * Fintype.card (Tosses n)) :=
        mul_le_mul_of_nonneg_left ih (by positivity)
      _ = _ := by rw [List.length_cons, pow_succ]; ring

/-- In how many cases there are many records. -/
theorem many_records (L : Nat) (hL : L ≤ 16) (hL1 : 1 ≤ L) {n : Nat} (idx : List (Fin n)) (hn : idx.Nodup) (r : Nat) :
    (3 / 2 : ℚ) ^ r * (Finset.univ.filter fun t : Tosses n => r ≤ records (idx.map fun i => heightOf (t i))).card ≤
      (1 + 1 / 2 ^ L) ^ idx.length * 2 ^ (L - 1) * Fintype.card (Tosses n) := by
  refine le_trans ?_ (sum_weight L hL hL1 idx hn)
  calc (3 / 2 : ℚ) ^ r * (Finset.univ.filter fun t : Tosses n => r ≤ records (idx.map fun i => heightOf (t i))).card =
      ∑ t ∈ Finset.univ.filter fun t : Tosses n => r ≤ records (idx.map fun i => heightOf (t i)), (3 / 2 : ℚ) ^ r := by
        rw [Finset.sum_const, nsmul_eq_mul, mul_comm]
    _ ≤ ∑ t ∈ Finset.univ.filter fun t : Tosses n => r ≤ records (idx.map fun i => heightOf (t i)),
          weight L (idx.map fun i => heightOf (t i)) := by
        refine Finset.sum_le_sum fun t ht => ?_
        have hr := (Finset.mem_filter.1 ht).2
        unfold weight
        calc (3 / 2 : ℚ) ^ r ≤ (3 / 2) ^ records (idx.map fun i => heightOf (t i)) := pow_le_pow_right₀ (by norm_num) hr
          _ ≤ _ := le_mul_of_one_le_right (by positivity) (one_le_pow₀ (by norm_num))
    _ ≤ _ := Finset.sum_le_sum_of_subset_of_nonneg (Finset.filter_subset _ _) fun t _ _ => by unfold weight; positivity

end Verif.SklTail
