import Mathlib.Algebra.BigOperators.Group.Finset.Basic
import Mathlib.Algebra.BigOperators.Ring.Finset
import Mathlib.Algebra.BigOperators.Fin
import Mathlib.Algebra.Order.BigOperators.Group.Finset
import Mathlib.Data.Fintype.Pi
import Mathlib.Data.Fintype.BigOperators
import Mathlib.Data.List.FinRange
import Mathlib.Tactic.Ring
import Mathlib.Tactic.Linarith
/-!
# How many elements of a random list are as great as all that follow
-/
namespace Verif.SklMean

/-- The elements of a list that are as great as all that follow. -/
def records : List Nat → Nat
  | [] => 0
  | a :: l => (if ∀ b ∈ l, b ≤ a then 1 else 0) + records l

/-- Those equal to `j`. -/
def recordsAt (j : Nat) : List Nat → Nat
  | [] => 0
  | a :: l => (if a = j then 1 else 0) * (if ∀ b ∈ l, b ≤ j then 1 else 0) + recordsAt j l

theorem records_append (M : Nat) : ∀ (A B : List Nat), (∀ a ∈ A ++ B, a ≤ M) →
    (A.filter fun a => decide (a = M)).length + records B ≤ records (A ++ B)
  | [], B, _ => by simp
  | a :: A, B, h => by
    have ih := records_append M A B fun x hx => h x (by simp only [List.cons_append, List.mem_cons]; exact .inr hx)
    simp only [List.cons_append, records]
    by_cases ha : a = M
    · rw [List.filter_cons, if_pos (by simpa using ha), if_pos]
      · simp only [List.length_cons]; omega
      · intro b hb; rw [ha]; exact h b (by simp only [List.cons_append, List.mem_cons]; exact .inr hb)
    · rw [List.filter_cons, if_neg (by simpa using ha)]
      omega

theorem records_eq (n : Nat) : ∀ (l : List Nat), (∀ a ∈ l, a < n) → records l = ∑ j ∈ Finset.range n, recordsAt j l
  | [], _ => by simp [records, recordsAt]
  | a :: l, h => by
    have ih := records_eq n l fun x hx => h x (List.mem_cons_of_mem _ hx)
    simp only [records, recordsAt, Finset.sum_add_distrib, ← ih]
    congr 1
    rw [Finset.sum_eq_single a]
    · simp
    · intro b _ hb
      simp [Ne.symm hb]
    · intro ha
      exact absurd (Finset.mem_range.2 (h a (by simp))) ha

theorem recordsAt_le (j : Nat) : ∀ (l : List Nat), recordsAt j l ≤ (l.map fun a => if a = j then 1 else 0).sum
  | [] => by simp [recordsAt]
  | a :: l => by
    have := recordsAt_le j l
    simp only [recordsAt, List.map_cons, List.sum_cons]
    split <;> split <;> omega

variable {ι D : Type} [Fintype ι] [DecidableEq ι] [Fintype D]

/-- What is drawn at `i` is independent of what does not depend on it. -/
theorem indep (i : ι) (f : D → Nat) (G : (ι → D) → Nat) (hG : ∀ t a, G (Function.update t i a) = G t) :
    Fintype.card D * ∑ t : ι → D, f (t i) * G t = (∑ a, f a) * ∑ t : ι → D, G t := by
  have h1 : Fintype.card D * ∑ t : ι → D, f (t i) * G t = ∑ p : (ι → D) × D, f (p.1 i) * G p.1 := by
    rw [Fintype.sum_prod_type, Finset.mul_sum]
    exact Finset.sum_congr rfl fun t _ => by simp
  have h2 : (∑ a, f a) * ∑ t : ι → D, G t = ∑ p : (ι → D) × D, f p.2 * G p.1 := by
    rw [Fintype.sum_prod_type_right, Finset.sum_mul]
    exact Finset.sum_congr rfl fun a _ => by rw [Finset.mul_sum]
  rw [h1, h2]
  have inv : Function.Involutive fun p : (ι → D) × D => (Function.update p.1 i p.2, p.1 i) := by
    rintro ⟨t, a⟩
    simp
  refine Fintype.sum_equiv inv.toPerm _ _ ?_
  rintro ⟨t, a⟩
  simp [Function.Involutive.toPerm, hG]

variable (g : D → Nat)

/-- In how many cases everything drawn at `idx` is at most `j`. -/
def lows (j : Nat) (idx : List ι) : Nat := ∑ t : ι → D, if ∀ b ∈ idx.map fun i => g (t i), b ≤ j then 1 else 0

theorem low_update {i : ι} {rest : List ι} (hi : i ∉ rest) (t : ι → D) (a : D) :
    (rest.map fun x => g (Function.update t i a x)) = rest.map fun x => g (t x) := by
  refine List.map_congr_left fun x hx => ?_
  rw [Function.update_of_ne]
  rintro rfl
  exact hi hx

/-- For a height that is as frequent as all greater ones together. -/
theorem sum_recordsAt [Nonempty D] (j : Nat) (hj : (∑ a, if g a = j then 1 else 0) = ∑ a, if j < g a then 1 else 0) :
    ∀ idx : List ι, idx.Nodup →
      (∑ t : ι → D, recordsAt j (idx.map fun i => g (t i))) + lows g j idx = Fintype.card (ι → D)
  | [], _ => by simp [recordsAt, lows]
  | i :: rest, hn => by
    obtain ⟨hi, hn⟩ := List.nodup_cons.1 hn
    have ih := sum_recordsAt j hj rest hn
    have e1 := indep i (fun a => if g a = j then 1 else 0) (fun t => if ∀ b ∈ rest.map fun i => g (t i), b ≤ j then 1 else 0)
      (fun t a => by simp only [low_update g hi])
    have e2 := indep i (fun a => if g a ≤ j then 1 else 0) (fun t => if ∀ b ∈ rest.map fun i => g (t i), b ≤ j then 1 else 0)
      (fun t a => by simp only [low_update g hi])
    have e3 : lows g j (i :: rest) = ∑ t : ι → D, (if g (t i) ≤ j then 1 else 0) * (if ∀ b ∈ rest.map fun i => g (t i), b ≤ j then 1 else 0) := by
      refine Finset.sum_congr rfl fun t _ => ?_
      simp only [List.map_cons, List.forall_mem_cons]
      by_cases h1 : g (t i) ≤ j <;> simp [h1]
    have e4 : (∑ a, if g a = j then 1 else 0) + (∑ a, if g a ≤ j then 1 else 0) = Fintype.card D := by
      rw [hj, ← Finset.sum_add_distrib]
      rw [← Finset.card_univ, Finset.card_eq_sum_ones]
      refine Finset.sum_congr rfl fun a _ => ?_
      by_cases h : g a ≤ j
      · simp [h, Nat.not_lt.2 h]
      · simp [h, Nat.lt_of_not_le h]
    have hpos : 0 < Fintype.card D := Fintype.card_pos
    refine Nat.eq_of_mul_eq_mul_left hpos ?_
    simp only [List.map_cons, recordsAt, Finset.sum_add_distrib]
    rw [e3, mul_add, mul_add, e1, e2]
    change _ * lows g j rest + _ + _ * lows g j rest = _
    rw [← ih, mul_add]
    have : Fintype.card D * lows g j rest =
        (∑ a, if g a = j then 1 else 0) * lows g j rest + (∑ a, if g a ≤ j then 1 else 0) * lows g j rest := by
      rw [← e4, add_mul]
    rw [this]
    ring

/-- For the greatest height, if it is drawn in one case. -/
theorem sum_top (j : Nat) (hj : (∑ a, if g a = j then 1 else 0) = 1) (idx : List ι) :
    Fintype.card D * (∑ t : ι → D, recordsAt j (idx.map fun i => g (t i))) ≤ idx.length * Fintype.card (ι → D) := by
  have h1 : ∀ idx : List ι, Fintype.card D * (∑ t : ι → D, ((idx.map fun i => g (t i)).map fun a => if a = j then 1 else 0).sum) =
      idx.length * Fintype.card (ι → D) := by
    intro idx
    induction idx with
    | nil => simp
    | cons i rest ih =>
      have e := indep i (fun a : D => if g a = j then 1 else 0) (fun _ => 1) (fun _ _ => rfl)
      simp only [mul_one, hj, one_mul, Finset.sum_const, Finset.card_univ, smul_eq_mul] at e
      simp only [List.map_cons, List.sum_cons, Finset.sum_add_distrib, mul_add, ih, e, List.length_cons]
      ring
  rw [← h1]
  exact Nat.mul_le_mul_left _ (Finset.sum_le_sum fun t _ => recordsAt_le j _)

end Verif.SklMean
