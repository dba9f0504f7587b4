import Verif.SklMean.Spec
import Verif.SklMean.Count
import Verif.SklCost.Lemmas
/-!
# Heights, searches and histories
-/
set_option linter.unusedSectionVars false
namespace Verif.SklMean
open Verif.Go Verif.Skl Verif.MapSpec

/-! ## Heights from coins -/

theorem heightOf_pos (c : Coins) : 1 ≤ heightOf c := by unfold heightOf; omega

theorem heightOf_le (c : Coins) : heightOf c ≤ 16 := by
  have := List.findIdx_le_length (p := c) (xs := List.finRange 15)
  rw [List.length_finRange] at this
  unfold heightOf
  omega

/-- The height is greater than `j` exactly if the first `j` coins show `false`. -/
theorem lt_heightOf {c : Coins} {j : Nat} (hj : j ≤ 15) : j < heightOf c ↔ ∀ i : Fin 15, i.val < j → c i = false := by
  unfold heightOf
  constructor
  · intro h i hi
    have h1 : i.val < (List.finRange 15).findIdx c := by omega
    have := List.not_of_lt_findIdx h1
    simpa using this
  · intro h
    rcases Nat.eq_zero_or_pos j with rfl | hp
    · omega
    · have := List.lt_findIdx_of_not (p := c) (xs := List.finRange 15) (i := j - 1) (by simp; omega) (by
        intro i hi
        have := h ⟨i, by omega⟩ (by simp only; omega)
        simpa using this)
      omega

/-- Turn one coin. -/
def turn (i : Fin 15) (c : Coins) : Coins := Function.update c i (!c i)

theorem turn_turn (i : Fin 15) : Function.Involutive (turn i) := by
  intro c
  simp [turn]

/-- Each height but the greatest is as frequent as all greater ones together. -/
theorem half (j : Nat) (h1 : 1 ≤ j) (h2 : j ≤ 15) :
    (∑ c : Coins, if heightOf c = j then 1 else 0) = ∑ c : Coins, if j < heightOf c then 1 else 0 := by
  refine Fintype.sum_equiv (turn_turn ⟨j - 1, by omega⟩).toPerm _ _ fun c => ?_
  have e : heightOf c = j ↔ j < heightOf (turn ⟨j - 1, by omega⟩ c) := by
    have a := lt_heightOf (c := c) (j := j - 1) (by omega)
    have b := lt_heightOf (c := c) (j := j) h2
    have b' := lt_heightOf (c := turn ⟨j - 1, by omega⟩ c) (j := j) h2
    rw [b']
    constructor
    · intro he i hi
      by_cases hij : i = ⟨j - 1, by omega⟩
      · rw [hij]
        simp only [turn, Function.update_self, Bool.not_eq_false']
        by_contra hc
        have : j < heightOf c := b.2 fun i hi => by
          by_cases hi' : i = ⟨j - 1, by omega⟩
          · rw [hi']; simpa using hc
          · exact a.1 (by omega) i (by
              have : i.val ≠ j - 1 := fun h => hi' (Fin.ext h)
              omega)
        omega
      · rw [turn, Function.update_of_ne hij]
        have : i.val ≠ j - 1 := fun h => hij (Fin.ext h)
        exact a.1 (by omega) i (by omega)
    · intro h
      have h3 : j - 1 < heightOf c := a.2 fun i hi => by
        have := h i (by omega)
        rwa [turn, Function.update_of_ne (by
          intro hi'; rw [hi'] at hi; simp at hi)] at this
      have h4 : ¬ j < heightOf c := fun hc => by
        have h5 := b.1 hc ⟨j - 1, by omega⟩ (by simp only; omega)
        have h6 := h ⟨j - 1, by omega⟩ (by simp only; omega)
        simp [turn, h5] at h6
      omega
  rw [Function.Involutive.coe_toPerm]
  by_cases hh : heightOf c = j
  · rw [if_pos hh, if_pos (e.1 hh)]
  · rw [if_neg hh, if_neg fun h => hh (e.2 h)]

/-- The greatest height is drawn in one case. -/
theorem top : (∑ c : Coins, if heightOf c = 16 then 1 else 0) = 1 := by
  rw [Finset.sum_eq_single fun _ => false]
  · rw [if_pos]
    have := (lt_heightOf (c := fun _ => false) (j := 15) (Nat.le_refl _)).2 fun _ _ => rfl
    have := heightOf_le fun _ => false
    omega
  · intro c _ hc
    rw [if_neg]
    intro he
    exact hc (funext fun i => (lt_heightOf (c := c) (j := 15) (Nat.le_refl _)).1 (by omega) i i.isLt)
  · intro h
    exact absurd (Finset.mem_univ _) h

theorem none0 : (∑ c : Coins, if heightOf c = 0 then 1 else 0) = 0 :=
  Finset.sum_eq_zero fun c _ => if_neg (by have := heightOf_pos c; omega)

theorem card_coins : Fintype.card Coins = 2 ^ 15 := by simp [Coins]

/-- The mean number of records. -/
theorem sum_records {n : Nat} (idx : List (Fin n)) (hn : idx.Nodup) :
    2 ^ 15 * (∑ t : Tosses n, records (idx.map fun i => heightOf (t i))) ≤
      (15 * 2 ^ 15 + idx.length) * Fintype.card (Tosses n) := by
  have e : ∀ t : Tosses n, records (idx.map fun i => heightOf (t i)) =
      ∑ j ∈ Finset.range 17, recordsAt j (idx.map fun i => heightOf (t i)) := fun t =>
    records_eq 17 _ fun a ha => by
      obtain ⟨i, _, rfl⟩ := List.mem_map.1 ha
      have := heightOf_le (t i)
      omega
  simp only [e]
  rw [Finset.sum_comm, Finset.sum_range_succ, mul_add]
  have h16 := sum_top heightOf 16 top idx
  rw [card_coins] at h16
  have h0 : (∑ t : Tosses n, recordsAt 0 (idx.map fun i => heightOf (t i))) = 0 := by
    refine Finset.sum_eq_zero fun t _ => ?_
    have := recordsAt_le 0 (idx.map fun i => heightOf (t i))
    have h2 : ((idx.map fun i => heightOf (t i)).map fun a => if a = 0 then 1 else 0).sum = 0 := by
      rw [List.sum_eq_zero]
      intro x hx
      simp only [List.map_map, List.mem_map, Function.comp] at hx
      obtain ⟨i, _, rfl⟩ := hx
      rw [if_neg]
      have := heightOf_pos (t i)
      omega
    omega
  have hj : ∀ j, 1 ≤ j → j ≤ 15 → (∑ t : Tosses n, recordsAt j (idx.map fun i => heightOf (t i))) ≤ Fintype.card (Tosses n) := by
    intro j h1 h2
    exact Nat.le.intro (sum_recordsAt heightOf j (half j h1 h2) idx hn)
  have h15 : (∑ j ∈ Finset.range 16, ∑ t : Tosses n, recordsAt j (idx.map fun i => heightOf (t i))) ≤ 15 * Fintype.card (Tosses n) := by
    rw [Finset.sum_range_succ', h0, Nat.add_zero]
    have := Finset.sum_le_card_nsmul (Finset.range 15)
      (fun j => ∑ t : Tosses n, recordsAt (j + 1) (idx.map fun i => heightOf (t i))) (Fintype.card (Tosses n))
      (fun j hj' => hj (j + 1) (by omega) (by have := Finset.mem_range.1 hj'; omega))
    simpa using this
  calc _ ≤ 2 ^ 15 * (15 * Fintype.card (Tosses n)) + idx.length * Fintype.card (Tosses n) :=
        Nat.add_le_add (Nat.mul_le_mul_left _ h15) h16
    _ = _ := by ring

/-! ## A search moves to records only -/

variable {K V : Type} [GoOrdered K]

theorem searchLoop_length {w : World K V} {k : K} {T : List Addr}
    (hT : ∀ b ∈ T, b ≠ w.skl.tail ∧ GoOrdered.lt (w.heap.mem b).key k = false) :
    ∀ (n : Nat) (x : Addr) (ctx : Nat → Option Addr) (S : List Addr),
      (∀ a ∈ S, a ≠ w.skl.tail ∧ GoOrdered.lt (w.heap.mem a).key k = true) → S.length < w.heap.brk + 1 →
      (∀ a ∈ S, (w.heap.mem a).height ≤ n) →
      (∀ i < n, Chain (fun a => (w.heap.mem a).next i) w.skl.tail x
        ((S.filter fun a => decide (i < (w.heap.mem a).height)) ++
          T.filter fun a => decide (i < (w.heap.mem a).height))) →
      (SklCost.searchLoop w.heap.mem w.skl.tail k (w.heap.brk + 1) n x ctx).2.length ≤
        records (S.map fun a => (w.heap.mem a).height) + n
  | 0, x, ctx, S, _, _, _, _ => by simp [SklCost.searchLoop]
  | n + 1, x, ctx, S, hS, hl, hh, hc => by
    have hw := SklCost.walk_spec (hc n (by omega)) (fun a ha => hS a (List.mem_filter.1 ha).1)
      (fun b hb => hT b (List.mem_filter.1 hb).1)
      (Nat.lt_of_le_of_lt (List.length_filter_le _ _) hl)
    simp only [SklCost.searchLoop, hw, SklCost.andThen, List.length_append, List.length_map]
    have ht : ((T.filter (fun a => decide (n < (w.heap.mem a).height))).take 1).length ≤ 1 := List.length_take_le _ _
    generalize hy : lastOf x (S.filter fun a => decide (n < (w.heap.mem a).height)) = y
    by_cases he : S.filter (fun a => decide (n < (w.heap.mem a).height)) = []
    · rw [he] at hy ⊢
      simp only [lastOf_nil] at hy
      subst hy
      have := searchLoop_length hT n x (fun j => if j = n then some x else ctx j) S hS hl
        (fun a ha => by
          have := List.filter_eq_nil_iff.1 he a ha
          simpa using this)
        (fun i hi => hc i (by omega))
      simp only [List.length_nil]
      omega
    · obtain ⟨S0, z, S1, hz, pz, hS1⟩ := SklCost.last_split _ S he
      have hzy : z = y := by
        rw [hz, List.filter_append, List.filter_cons, if_pos pz, lastOf_append_cons, hS1] at hy
        exact hy
      subst hzy
      have hpz : n < (w.heap.mem z).height := by simpa using pz
      have ih := searchLoop_length hT n z (fun j => if j = n then some z else ctx j) S1
        (fun a ha => hS a (by rw [hz]; simp [ha])) (by rw [hz] at hl; simp at hl; omega)
        (fun a ha => by
          have := List.filter_eq_nil_iff.1 hS1 a ha
          simpa using this)
        (fun i hi => by
          have := hc i (by omega)
          rw [hz, List.filter_append, List.filter_cons, if_pos (by simp; omega), List.append_assoc,
            List.cons_append] at this
          exact this.drop)
      have h1 : S.filter (fun a => decide (n < (w.heap.mem a).height)) =
          (S0 ++ [z]).filter fun a => decide (n < (w.heap.mem a).height) := by
        rw [hz, List.filter_append, List.filter_append, List.filter_cons, if_pos pz, hS1, List.filter_cons,
          if_pos pz]
        rfl
      have h2 : S = (S0 ++ [z]) ++ S1 := by rw [hz]; simp
      have h3 : (((S0 ++ [z]).map fun a => (w.heap.mem a).height).filter fun a => decide (a = n + 1)).length =
          ((S0 ++ [z]).filter fun a => decide (n < (w.heap.mem a).height)).length := by
        rw [List.filter_map, List.length_map]
        congr 1
        refine List.filter_congr fun a ha => ?_
        have := hh a (by rw [h2]; exact List.mem_append_left _ ha)
        simp only [Function.comp, decide_eq_decide]
        omega
      have h4 := records_append (n + 1) ((S0 ++ [z]).map fun a => (w.heap.mem a).height) (S1.map fun a => (w.heap.mem a).height)
        (fun a ha => by
          rw [← List.map_append, ← h2] at ha
          obtain ⟨b, hb, rfl⟩ := List.mem_map.1 ha
          exact hh b hb)
      rw [← List.map_append, ← h2] at h4
      rw [h1]
      omega

variable [LawfulOrdered K]

theorem search_length {w : World K V} {nodes : List Addr} (r : Rep w nodes) (k : K) :
    (SklCost.search w k).2.length ≤ records ((before w nodes k).map fun a => (w.heap.mem a).height) + 17 := by
  have hT : ∀ b ∈ Skl.after w nodes k, b ≠ w.skl.tail ∧ GoOrdered.lt (w.heap.mem b).key k = false := by
    intro b hb
    simp [Skl.after] at hb
    exact ⟨r.ne_tail b hb.1, hb.2⟩
  have hS : ∀ b ∈ before w nodes k, b ≠ w.skl.tail ∧ GoOrdered.lt (w.heap.mem b).key k = true := by
    intro b hb
    simp [before] at hb
    exact ⟨r.ne_tail b hb.1, hb.2⟩
  have hl : (before w nodes k).length < w.heap.brk + 1 := by
    have := r.length_le
    have := List.length_filter_le (fun a => GoOrdered.lt (w.heap.mem a).key k) nodes
    simp only [before]
    omega
  have h := searchLoop_length hT maxHeight w.skl.head (fun _ => none) (before w nodes k) hS hl
    (fun a ha => (r.height a (by simp [before] at ha; exact ha.1)).2) (fun i hi => r.chain_split k hi)
  unfold SklCost.search
  generalize SklCost.searchLoop w.heap.mem w.skl.tail k (w.heap.brk + 1) maxHeight w.skl.head (fun _ => none) = q at h
  obtain ⟨o, c⟩ := q
  have hm : maxHeight = 16 := rfl
  cases o with
  | panic => simp only [SklCost.andThen] at h ⊢; omega
  | hang => simp only [SklCost.andThen] at h ⊢; omega
  | ret p =>
    obtain ⟨x, ctx⟩ := p
    simp only [SklCost.andThen, List.length_append] at h ⊢
    cases (w.heap.mem x).next 0 with
    | none => simp only [List.length_nil]; omega
    | some y =>
      simp only
      split
      · simp only [List.length_nil]; omega
      · split <;> simp only [List.length_singleton] <;> omega

/-! ## Updates keep heights -/

theorem linkLoop_height {node : Addr} {ctx : Nat → Option Addr} {m : Addr → Node K V} : ∀ {n : Nat} {m' : Addr → Node K V},
    linkLoop node ctx m n = .ret m' → ∀ a, (m' a).height = (m a).height
  | 0, m', e, a => by cases e; rfl
  | n + 1, m', e, a => by
    unfold linkLoop at e
    cases h : linkLoop node ctx m n with
    | panic => simp [h] at e
    | hang => simp [h] at e
    | ret m1 =>
      have ih := linkLoop_height h a
      rw [h] at e
      simp only [Outcome.bind_ret] at e
      cases hc : ctx n with
      | none => simp [hc] at e
      | some c =>
        simp only [hc, Outcome.ret.injEq] at e
        subst e
        rw [← ih]
        unfold setNext
        by_cases h1 : a = c <;> by_cases h2 : a = node <;> simp_all

theorem unlinkLoop_height {x : Addr} {ctx : Nat → Option Addr} {m : Addr → Node K V} : ∀ {n : Nat} {m' : Addr → Node K V},
    unlinkLoop x ctx m n = .ret m' → ∀ a, (m' a).height = (m a).height
  | 0, m', e, a => by cases e; rfl
  | n + 1, m', e, a => by
    unfold unlinkLoop at e
    cases h : unlinkLoop x ctx m n with
    | panic => simp [h] at e
    | hang => simp [h] at e
    | ret m1 =>
      have ih := unlinkLoop_height h a
      rw [h] at e
      simp only [Outcome.bind_ret] at e
      cases hc : ctx n with
      | none => simp [hc] at e
      | some c =>
        simp only [hc, Outcome.ret.injEq] at e
        subst e
        rw [← ih]
        unfold setNext
        by_cases h1 : a = c <;> simp_all

theorem insertWith_height {rh : Nat × BitVec 64} {w w' : World K V} {k : K} {v : V} (e : insertWith rh w k v = .ret w') :
    (w'.heap.brk = w.heap.brk ∧ ∀ a, (w'.heap.mem a).height = (w.heap.mem a).height) ∨
    (w'.heap.brk = w.heap.brk + 1 ∧ (w'.heap.mem w.heap.brk).height = rh.1 ∧
      ∀ a, a ≠ w.heap.brk → (w'.heap.mem a).height = (w.heap.mem a).height) := by
  unfold insertWith at e
  cases h : Skl.search w k with
  | panic => simp [h] at e
  | hang => simp [h] at e
  | ret p =>
    obtain ⟨_ | x, ctx⟩ := p
    · right
      simp only [h, Outcome.bind_ret] at e
      cases hl : linkLoop w.heap.brk ctx (fun b => if b = w.heap.brk then
          ({ key := k, value := v, next := fun _ => none, height := rh.1 } : Node K V) else w.heap.mem b) rh.1 with
      | panic => simp [hl] at e
      | hang => simp [hl] at e
      | ret m =>
        simp only [hl, Outcome.bind_ret, Outcome.ret.injEq] at e
        subst e
        have := linkLoop_height hl
        refine ⟨rfl, ?_, fun a ha => ?_⟩
        · rw [this]; simp
        · rw [this]; simp [ha]
    · left
      simp only [h, Outcome.bind_ret, Outcome.ret.injEq] at e
      subst e
      refine ⟨rfl, fun a => ?_⟩
      unfold setValue
      by_cases ha : a = x <;> simp [ha]

theorem delete_height {w w' : World K V} {k : K} {b : Bool} (e : Skl.delete w k = .ret (w', b)) :
    ∀ a, (w'.heap.mem a).height = (w.heap.mem a).height := by
  unfold Skl.delete at e
  cases h : Skl.search w k with
  | panic => simp [h] at e
  | hang => simp [h] at e
  | ret p =>
    obtain ⟨_ | x, ctx⟩ := p
    · simp only [h, Outcome.bind_ret, Outcome.ret.injEq, Prod.mk.injEq] at e
      obtain ⟨rfl, _⟩ := e
      exact fun _ => rfl
    · simp only [h, Outcome.bind_ret] at e
      cases hl : unlinkLoop x ctx w.heap.mem (w.heap.mem x).height with
      | panic => simp [hl] at e
      | hang => simp [hl] at e
      | ret m =>
        simp only [hl, Outcome.bind_ret, Outcome.ret.injEq, Prod.mk.injEq] at e
        obtain ⟨rfl, _⟩ := e
        exact unlinkLoop_height hl

end Verif.SklMean
