import Verif.SklTail.Hist
/-!
# C156: with fair coins a call on the skip-list map is rarely slow
-/
namespace Verif.SklTail
open Verif.Go Verif.Skl Verif.MapSpec Verif.SklMean

variable {K V : Type} [GoOrdered K] [LawfulOrdered K] [DecidableEq K] [Inhabited K] [Inhabited V]

/-- **C156.** Let `m` be the number of present keys smaller than that of the call, and `1 ≤ L ≤ 16`. The part of all ways the coins can
fall in which a `Get`, `Set`, `Del` or `Seek` makes at least `17 + r` comparisons is at most `2^(L-1) * (1 + 1/2^L)^m * (2/3)^r`. -/
theorem C156_tail (seed : BitVec 64) (hist : List (Op K V)) (c : Call K V) (ks : List K) (hks : PresentKeys hist ks) (L : Nat)
    (hL : L ≤ 16) (hL1 : 1 ≤ L) (r : Nat) :
    3 ^ r * (2 ^ L) ^ (ks.filter fun x => GoOrdered.lt x c.key).length * slow seed hist c (17 + r) ≤
      2 ^ r * 2 ^ (L - 1) * (2 ^ L + 1) ^ (ks.filter fun x => GoOrdered.lt x c.key).length * Fintype.card (Tosses hist.length) := by
  obtain ⟨M, m⟩ := made_run seed hist
  have h := slow_prefix m (Nat.le_refl _) c L hL hL1 r
  rw [made_length m hks] at h
  generalize (ks.filter fun x => GoOrdered.lt x c.key).length = k at h ⊢
  change (3 / 2 : ℚ) ^ r * (slow seed hist c (17 + r) : ℚ) ≤ _ at h
  have e : (1 + 1 / 2 ^ L : ℚ) = (2 ^ L + 1) / 2 ^ L := by field_simp
  rw [e, div_pow, div_pow] at h
  have h2 := mul_le_mul_of_nonneg_left h (show (0 : ℚ) ≤ 2 ^ r * (2 ^ L) ^ k by positivity)
  have e1 : (2 ^ r * (2 ^ L) ^ k : ℚ) * (3 ^ r / 2 ^ r * (slow seed hist c (17 + r) : ℚ)) =
      3 ^ r * (2 ^ L) ^ k * (slow seed hist c (17 + r) : ℚ) := by field_simp
  have e2 : (2 ^ r * (2 ^ L) ^ k : ℚ) * ((2 ^ L + 1) ^ k / (2 ^ L) ^ k * 2 ^ (L - 1) * (Fintype.card (Tosses hist.length) : ℚ)) =
      2 ^ r * 2 ^ (L - 1) * (2 ^ L + 1) ^ k * (Fintype.card (Tosses hist.length) : ℚ) := by field_simp
  rw [e1, e2] at h2
  exact_mod_cast h2

/-- **C156, in short**: if there are at most `2^L` smaller keys, `1 ≤ L ≤ 16`, the part is at most `3 * 2^(L-1) * (2/3)^r`. -/
theorem C156_rare (seed : BitVec 64) (hist : List (Op K V)) (c : Call K V) (ks : List K) (hks : PresentKeys hist ks) (L : Nat)
    (hL : L ≤ 16) (hL1 : 1 ≤ L) (hm : (ks.filter fun x => GoOrdered.lt x c.key).length ≤ 2 ^ L) (r : Nat) :
    3 ^ r * slow seed hist c (17 + r) ≤ 3 * 2 ^ (L - 1) * 2 ^ r * Fintype.card (Tosses hist.length) := by
  obtain ⟨M, m⟩ := made_run seed hist
  have h := slow_prefix m (Nat.le_refl _) c L hL hL1 r
  rw [made_length m hks] at h
  have h3 := below_three (Nat.two_pow_pos L) hm
  push_cast at h3
  change (3 / 2 : ℚ) ^ r * (slow seed hist c (17 + r) : ℚ) ≤ _ at h
  have h4 : (3 / 2 : ℚ) ^ r * (slow seed hist c (17 + r) : ℚ) ≤ 3 * 2 ^ (L - 1) * Fintype.card (Tosses hist.length) := by
    refine h.trans ?_
    gcongr
  have h5 := mul_le_mul_of_nonneg_left h4 (show (0 : ℚ) ≤ 2 ^ r by positivity)
  have e1 : (2 ^ r : ℚ) * ((3 / 2) ^ r * (slow seed hist c (17 + r) : ℚ)) = 3 ^ r * (slow seed hist c (17 + r) : ℚ) := by
    rw [div_pow]; field_simp
  rw [e1] at h5
  have : (3 ^ r * (slow seed hist c (17 + r) : ℚ)) ≤ 3 * 2 ^ (L - 1) * 2 ^ r * Fintype.card (Tosses hist.length) := by linarith
  exact_mod_cast this

/-- **C156, a whole history**: of a history of at most `2^L` updates, `1 ≤ L ≤ 16`, the part of all ways the coins can fall in which
some update makes at least `17 + r` comparisons is at most `hist.length * 3 * 2^(L-1) * (2/3)^r`. -/
theorem C156_history (seed : BitVec 64) (hist : List (Op K V)) (L : Nat) (hL : L ≤ 16) (hL1 : 1 ≤ L) (hm : hist.length ≤ 2 ^ L) (r : Nat) :
    3 ^ r * someSlow seed hist (17 + r) ≤ hist.length * (3 * 2 ^ (L - 1) * 2 ^ r * Fintype.card (Tosses hist.length)) := by
  classical
  let E : Nat → Finset (Tosses hist.length) := fun i =>
    Finset.univ.filter fun t => ∃ op c, hist[i]? = some op ∧ callOf op = some c ∧ 17 + r ≤ after (run (extend t) (Skl.new seed) (hist.take i)) c
  have hE : ∀ i, 3 ^ r * (E i).card ≤ 3 * 2 ^ (L - 1) * 2 ^ r * Fintype.card (Tosses hist.length) := by
    intro i
    by_cases hc : ∃ op c, hist[i]? = some op ∧ callOf op = some c
    · obtain ⟨op, c, h1, h2⟩ := hc
      have e : E i = Finset.univ.filter fun t : Tosses hist.length => 17 + r ≤ after (run (extend t) (Skl.new seed) (hist.take i)) c := by
        refine Finset.filter_congr fun t _ => ⟨?_, fun h => ⟨op, c, h1, h2, h⟩⟩
        rintro ⟨op', c', g1, g2, g3⟩
        rw [h1] at g1; cases g1
        rw [h2] at g2; cases g2
        exact g3
      obtain ⟨M, m⟩ := made_run seed (hist.take i)
      have h := slow_prefix m (n := hist.length) (List.length_take_le' _ _) c L hL hL1 r
      rw [← e] at h
      have hs : (M.filter fun x => GoOrdered.lt x.1 c.key).length ≤ 2 ^ L :=
        (List.length_filter_le _ _).trans ((made_short m).trans ((List.length_take_le' _ _).trans hm))
      have h3 := below_three (Nat.two_pow_pos L) hs
      push_cast at h3
      have h4 : (3 / 2 : ℚ) ^ r * ((E i).card : ℚ) ≤ 3 * 2 ^ (L - 1) * Fintype.card (Tosses hist.length) := by
        refine h.trans ?_
        gcongr
      have h5 := mul_le_mul_of_nonneg_left h4 (show (0 : ℚ) ≤ 2 ^ r by positivity)
      have e1 : (2 ^ r : ℚ) * ((3 / 2) ^ r * ((E i).card : ℚ)) = 3 ^ r * ((E i).card : ℚ) := by
        rw [div_pow]; field_simp
      rw [e1] at h5
      have : (3 ^ r * ((E i).card : ℚ)) ≤ 3 * 2 ^ (L - 1) * 2 ^ r * Fintype.card (Tosses hist.length) := by linarith
      exact_mod_cast this
    · have : E i = ∅ := Finset.filter_eq_empty_iff.2 fun t _ => by
        rintro ⟨op, c, h1, h2, _⟩
        exact hc ⟨op, c, h1, h2⟩
      rw [this]; simp
  have hsub : (Finset.univ.filter fun t : Tosses hist.length => SomeSlow (extend t) seed hist (17 + r)) ⊆
      (Finset.range hist.length).biUnion E := by
    intro t ht
    obtain ⟨i, op, c, h1, h2, h3⟩ := (Finset.mem_filter.1 ht).2
    refine Finset.mem_biUnion.2 ⟨i, Finset.mem_range.2 (List.getElem?_eq_some_iff.1 h1).1, ?_⟩
    exact Finset.mem_filter.2 ⟨Finset.mem_univ _, op, c, h1, h2, h3⟩
  calc 3 ^ r * someSlow seed hist (17 + r) ≤ 3 ^ r * ∑ i ∈ Finset.range hist.length, (E i).card :=
        Nat.mul_le_mul_left _ ((Finset.card_le_card hsub).trans Finset.card_biUnion_le)
    _ = ∑ i ∈ Finset.range hist.length, 3 ^ r * (E i).card := Finset.mul_sum _ _ _
    _ ≤ ∑ _i ∈ Finset.range hist.length, 3 * 2 ^ (L - 1) * 2 ^ r * Fintype.card (Tosses hist.length) :=
        Finset.sum_le_sum fun i _ => hE i
    _ = _ := by rw [Finset.sum_const, Finset.card_range, smul_eq_mul]

/-- Twenty keys in ascending order. -/
def twenty : List (Op Nat Nat) := (List.range 20).map fun i => .set i i

theorem run_congr (hist : List (Op Nat Nat)) : ∀ (t t' : Nat → Coins) (w : World Nat Nat), (∀ i < hist.length, t i = t' i) →
    run t w hist = run t' w hist := by
  induction hist with
  | nil => intro _ _ _ _; rfl
  | cons op ops ih =>
    intro t t' w ht
    simp only [SklMean.run, ht 0 (by simp)]
    congr 1
    funext w'
    exact ih _ _ _ fun i hi => ht (i + 1) (by simpa using hi)

theorem slow_pos {seed : BitVec 64} {hist : List (Op Nat Nat)} {c : Call Nat Nat} {b : Nat}
    (h : b ≤ after (run (fun _ _ => true) (Skl.new seed) hist) c) : 0 < slow seed hist c b := by
  refine Finset.card_pos.2 ⟨fun _ _ => true, Finset.mem_filter.2 ⟨Finset.mem_univ _, ?_⟩⟩
  rw [run_congr hist (extend fun (_ : Fin hist.length) (_ : Fin 15) => true) (fun _ _ => true) _ fun i hi => by simp [extend, hi]]
  exact h

/-- Slow cases are there: if every node gets height one, `Get` of the last key makes twenty comparisons. -/
theorem twenty_slow : 0 < slow 0 twenty (.get 19) (17 + 3) := slow_pos (by decide +kernel)

theorem twenty_keys : PresentKeys twenty (List.range 20) := by
  have h : ∀ n k : Nat, lookup ((List.range n).map fun i => Op.set i i) k = if k < n then some k else none := by
    intro n
    induction n with
    | zero => intro k; rfl
    | succ n ih =>
      intro k
      rw [List.range_succ, List.map_append, List.map_singleton, lookup_set, ih k]
      by_cases e : k = n
      · simp [e]
      · rw [if_neg e]
        by_cases h : k < n
        · rw [if_pos h, if_pos (by omega)]
        · rw [if_neg h, if_neg (by omega)]
  refine ⟨List.nodup_range, fun k => ?_⟩
  rw [twenty, h]
  by_cases hk : k < 20 <;> simp [hk]

/-- With twenty keys, at least sixty comparisons come in less than one of five hundred thousand cases. -/
example : 500000 * slow 0 twenty (.get 19) (17 + 43) ≤ Fintype.card (Tosses twenty.length) := by
  have h := C156_rare 0 twenty (.get 19) _ twenty_keys 5 (by omega) (by omega) (by decide +kernel) 43
  omega

/-- The history that makes the twenty keys. -/
example (r : Nat) : 3 ^ r * someSlow 0 twenty (17 + r) ≤ twenty.length * (3 * 2 ^ (5 - 1) * 2 ^ r * Fintype.card (Tosses twenty.length)) :=
  C156_history 0 twenty 5 (by omega) (by omega) (by decide) r

/-- If every node gets height one, the last `Set` makes nineteen comparisons. -/
example : SomeSlow (fun _ _ => true) 0 twenty 19 := ⟨19, _, _, rfl, rfl, by decide +kernel⟩

/-- A `Del` after it makes more. -/
example : SomeSlow (fun _ _ => true) 0 (twenty ++ [.del 19]) 20 := ⟨20, .del 19, _, rfl, rfl, by decide +kernel⟩

end Verif.SklTail
