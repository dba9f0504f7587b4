import Verif.SklMean.Hist
/-!
# C151: with fair coins a call on the skip-list map compares few keys on average
-/
namespace Verif.SklMean
open Verif.Go Verif.Skl Verif.MapSpec

/-- `rand_height` is what its coins say. -/
theorem C151_height (seed : BitVec 64) : (randHeight seed).1 = heightOf (generated seed) := by
  have key : ∀ n, n ≤ 15 → (∀ i : Fin 15, i.val < 15 - n → generated seed i = false) →
      (randHeightLoop n (seed + BitVec.ofNat 64 (15 - n) * incrementConstant)).1 = heightOf (generated seed) := by
    intro n
    induction n with
    | zero =>
      intro _ h
      have h1 := (lt_heightOf (c := generated seed) (j := 15) (Nat.le_refl _)).2 h
      have h2 := heightOf_le (generated seed)
      simp only [randHeightLoop, maxHeight]
      omega
    | succ n ih =>
      intro hn h
      have hs : seed + BitVec.ofNat 64 (15 - (n + 1)) * incrementConstant + incrementConstant =
          seed + BitVec.ofNat 64 (15 - n) * incrementConstant := by
        rw [show 15 - n = 15 - (n + 1) + 1 by omega, BitVec.ofNat_add, BitVec.add_mul, BitVec.one_mul, BitVec.add_assoc]
      have h1 := (lt_heightOf (c := generated seed) (j := 15 - (n + 1)) (by omega)).2 h
      simp only [randHeightLoop, splitmix64, hs]
      have hg : generated seed ⟨15 - (n + 1), by omega⟩ =
          decide (mix (seed + BitVec.ofNat 64 (15 - n) * incrementConstant) &&& 1#64 = 1#64) := by
        unfold generated
        rw [show 15 - (n + 1) + 1 = 15 - n by omega]
      by_cases hc : mix (seed + BitVec.ofNat 64 (15 - n) * incrementConstant) &&& 1#64 = 1#64
      · rw [if_pos hc]
        have h2 : ¬ 15 - n < heightOf (generated seed) := fun h2 => by
          have := (lt_heightOf (j := 15 - n) (by omega)).1 h2 ⟨15 - (n + 1), by omega⟩ (by simp only; omega)
          rw [hg] at this
          simp [hc] at this
        simp only [maxHeight]
        omega
      · rw [if_neg hc]
        refine ih (by omega) fun i hi => ?_
        by_cases hi' : i.val < 15 - (n + 1)
        · exact h i hi'
        · have : i = ⟨15 - (n + 1), by omega⟩ := Fin.ext (by simp only; omega)
          rw [this, hg]
          simpa using hc
  have := key 15 (Nat.le_refl _) (fun i hi => by omega)
  simpa [randHeight, maxHeight] using this

variable {K V : Type} [GoOrdered K]

/-- **C151, the coins and the generator**: whatever the program does with its generator, it does with some coins. -/
theorem C151_generator [Inhabited K] [Inhabited V] (hist : List (Op K V)) (w : World K V) : ∃ t, Skl.run w hist = run t w hist := by
  induction hist generalizing w with
  | nil => exact ⟨fun _ _ => false, rfl⟩
  | cons op ops ih =>
    have e : Skl.step w op = step (generated w.skl.seed) w op := by
      cases op with
      | set k v => 
        rw [Skl.step, step, Skl.set, Skl.insert, ← C151_height, Prod.mk.eta]
      | del k => rfl
      | clear s => rfl
    cases h : Skl.step w op with
    | ret w' =>
      obtain ⟨t, ht⟩ := ih w'
      refine ⟨fun i => match i with | 0 => generated w.skl.seed | i + 1 => t i, ?_⟩
      simp only [Skl.run, run, ← e, h, Outcome.bind_ret, ht]
    | panic => exact ⟨fun _ => generated w.skl.seed, by simp only [Skl.run, run, ← e, h, Outcome.bind]⟩
    | hang => exact ⟨fun _ => generated w.skl.seed, by simp only [Skl.run, run, ← e, h, Outcome.bind]⟩

variable [LawfulOrdered K] [DecidableEq K] [Inhabited K] [Inhabited V]

/-- **C151.** After every history, the comparisons of a `Get`, `Set`, `Del` or `Seek`, added up over all ways the coins can fall, are at
most `32 + m / 2^15` for each, where `m` is the number of present keys smaller than that of the call. So this is a bound of the mean if
the coins are fair and the history does not depend on them. -/
theorem C151_mean (seed : BitVec 64) (hist : List (Op K V)) (c : Call K V) (ks : List K) (hks : PresentKeys hist ks) :
    2 ^ 15 * total seed hist c ≤
      (32 * 2 ^ 15 + (ks.filter fun x => GoOrdered.lt x c.key).length) * Fintype.card (Tosses hist.length) :=
  total_le seed hist c hks

/-- **C151, every case counts**: with all coins the history runs to its end, and the map holds the same keys. -/
theorem C151_runs (seed : BitVec 64) (hist : List (Op K V)) (t : Nat → Coins) :
    ∃ w, run t (Skl.new seed) hist = .ret w ∧ ∃ l, Skl.keys w = .ret l ∧ PresentKeys hist l := by
  obtain ⟨L, m⟩ := made_run seed hist
  obtain ⟨w, nodes, e, r, h⟩ := m.rep t
  refine ⟨w, e, nodes.map fun a => (w.heap.mem a).key, ?_, ?_, ?_⟩
  · simp only [Skl.keys, r.entries, Outcome.map, kvs, List.map_map, Function.comp_def]
  · rw [List.Nodup, List.pairwise_map]
    refine r.sorted.imp ?_
    intro a b hab he
    rw [he, LawfulOrdered.irrefl] at hab
    cases hab
  · intro k
    rw [keys_of h, m.keys]

/-- **C151, how often a height is drawn**: of the `2^15` ways fifteen coins can fall, `2^(15 - j)` lead to a height above `j`. -/
theorem C151_heights (j : Nat) (hj : j ≤ 15) : (∑ c : Coins, if j < heightOf c then 1 else 0) = 2 ^ (15 - j) := by
  induction j with
  | zero =>
    have : ∀ c : Coins, (if 0 < heightOf c then 1 else 0) = 1 := fun c => if_pos (heightOf_pos c)
    simp only [this, Finset.sum_const, Finset.card_univ, smul_eq_mul, mul_one, card_coins]
  | succ j ih =>
    have h := ih (by omega)
    have h1 := half (j + 1) (by omega) hj
    have h2 : (∑ c : Coins, if j < heightOf c then 1 else 0) =
        (∑ c : Coins, if heightOf c = j + 1 then 1 else 0) + ∑ c : Coins, if j + 1 < heightOf c then 1 else 0 := by
      rw [← Finset.sum_add_distrib]
      refine Finset.sum_congr rfl fun c _ => ?_
      split <;> split <;> split <;> omega
    rw [h, h1] at h2
    have h3 : 2 ^ (15 - j) = 2 * 2 ^ (15 - (j + 1)) := by
      rw [show 15 - j = 15 - (j + 1) + 1 by omega, pow_succ]
      ring
    omega

/-- Two keys. -/
def two : List (Op Nat Nat) := [.set 10 1, .set 20 2]

theorem two_keys : PresentKeys two [10, 20] := by
  refine ⟨by decide, fun k => ?_⟩
  by_cases h10 : k = 10
  · subst h10; simp [two, lookup]
  · by_cases h20 : k = 20
    · subst h20; simp [two, lookup]
    · simp [two, lookup, h10, h20]

/-- At most `32 + 1 / 2^15` comparisons on average. -/
example : 2 ^ 15 * total 0 two (.get 20) ≤
    (32 * 2 ^ 15 + ([10, 20].filter fun x => GoOrdered.lt x (Call.key (.get 20 : Call Nat Nat))).length) * Fintype.card (Tosses two.length) :=
  C151_mean 0 two (.get 20) [10, 20] two_keys

/-- With nodes of height one, `Get` of the greater key makes three. -/
example : after (run (fun _ _ => true) (Skl.new 0) two) (.get 20) = 3 := by decide

end Verif.SklMean
