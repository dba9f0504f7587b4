import Verif.Inter.Lemmas
/-!
# Properties C44-C46: intersection of intervals
-/
namespace Verif.Inter
open Verif.Go

/-! ## Lemmas -/

theorem zeros_sorted {is : List Interval} (h : ∀ i ∈ is, Sane i) {s : List Tuple} (hs : SortedTo (tuples is) s) :
    zeros s = is.length ∧ edges (-1) s = is.length ∧ edges 1 s = is.length := by
  obtain ⟨c1, c2, c3⟩ := count_tuples h (fun _ => true)
  simp only [Bool.and_true, List.countP_true] at c1 c2 c3
  exact ⟨by rw [zeros, hs.1.countP_eq, c2], by rw [edges, hs.1.countP_eq, c1], by rw [edges, hs.1.countP_eq, c3]⟩

theorem search_ok (s : List Tuple) (m : Nat) : ∀ (k : Nat) (lo up a b : Int), k ≤ m / 2 → search s m k lo up = (a, b, true) →
    ∃ f x y m1 m2, f < m / 2 ∧ scan (-1) (m - f) s 0 0 = (x, m1) ∧ scan 1 (m - f) s.reverse 0 m1 = (y, m2) ∧
      (∀ x', x = some x' → a = x') ∧ (∀ y', y = some y' → b = y') ∧ a ≤ b ∧ m2 ≤ (f : Int) := by
  intro k
  induction k with
  | zero => intro lo up a b _ h; simp [search] at h
  | succ k ih =>
    intro lo up a b hk h
    simp only [search] at h
    split at h
    · rename_i hc
      simp only [Prod.mk.injEq, and_true] at h
      refine ⟨m / 2 - (k + 1), _, _, _, _, by omega, rfl, rfl, ?_, ?_, by omega, hc.2⟩
      · intro x' e; rw [← h.1, e]; rfl
      · intro y' e; rw [← h.2, e]; rfl
    · exact ih _ _ _ _ (by omega) h

/-- A scan that can count all the opening edges before anything else stops at the last of them. -/
theorem scan_full {sgn k : Int} (hk : (sgn = -1 ∧ k = -1) ∨ (sgn = 1 ∧ k = 1)) (key : Tuple → Int) {s : List Tuple} {A : Int}
    (hty : Typed s) (hso : s.Pairwise fun a b => key a ≤ key b) (h1 : ∀ t ∈ s, t.typ = k → key t ≤ A)
    (h2 : ∃ t ∈ s, t.typ = k ∧ key t = A) (h3 : ∀ t ∈ s, t.typ ≠ k → A < key t) (mid : Int) :
    ∃ t ∈ s, scan sgn (edges k s) s 0 mid = (some t.off, mid) ∧ key t = A ∧ t.typ = k := by
  have htot : ∀ l, Typed l → total sgn l = edges k l - edges (-k) l := by
    intro l hl
    have := total_eq hl
    rcases hk with ⟨rfl, rfl⟩ | ⟨rfl, rfl⟩
    · exact this.1
    · exact this.2
  have hsgn : sgn * k = 1 := by rcases hk with ⟨rfl, rfl⟩ | ⟨rfl, rfl⟩ <;> rfl
  have hne : ∀ l : List Tuple, (∀ t ∈ l, t ∈ s) → (∀ t ∈ l, key t ≤ A) → edges (-k) l = 0 ∧ zeros l = 0 := by
    intro l hl hA
    constructor
    · rw [edges, List.countP_eq_zero]
      intro t ht hc
      have e : t.typ = -k := by simpa using hc
      have := h3 t (hl t ht) (by rcases hk with ⟨_, rfl⟩ | ⟨_, rfl⟩ <;> omega)
      have := hA t ht
      omega
    · rw [zeros, List.countP_eq_zero]
      intro t ht hc
      have e : t.typ = 0 := by simpa using hc
      have := h3 t (hl t ht) (by rcases hk with ⟨_, rfl⟩ | ⟨_, rfl⟩ <;> omega)
      have := hA t ht
      omega
  have hmono : ∀ p q : List Tuple, edges k (p ++ q) = edges k p + edges k q := fun p q => by simp [edges]
  obtain ⟨w, hw, hwk, hwA⟩ := h2
  have hpos : 0 < edges k s := by rw [edges, List.countP_pos_iff]; exact ⟨w, hw, by simpa using hwk⟩
  rcases scan_cases sgn (edges k s) s 0 mid with ⟨pre, t, post, e, e1, e2, e3⟩ | ⟨e1, e3⟩
  · have hin : ∀ u ∈ pre ++ [t], u ∈ s := by intro u hu; rw [e]; simp at hu ⊢; tauto
    have htys : Typed (pre ++ [t]) := fun u hu => hty u (hin u hu)
    have t1 := htot _ htys
    have t2 : edges k s = edges k (pre ++ [t]) + edges k post := by rw [← hmono, e]; simp
    have hpost : edges k post = 0 := by omega
    -- the element found is an opening edge
    have htk : t.typ = k := by
      by_contra hc
      have htot' : total sgn (pre ++ [t]) ≤ total sgn pre := by
        have hle : sgn * t.typ ≤ 0 := by
          rcases hty t (hin t (by simp)) with x | x | x <;> rcases hk with ⟨rfl, rfl⟩ | ⟨rfl, rfl⟩ <;> omega
        simp [total] at hle ⊢
        omega
      rcases List.eq_nil_or_concat pre with rfl | ⟨p, t', rfl⟩
      · simp [total] at htot' e2; omega
      · have := e3 p t' (by simp)
        simp only [List.concat_eq_append] at htot' e2
        omega
    have hwin : w ∈ pre ++ [t] := by
      rw [e] at hw
      rw [show pre ++ t :: post = (pre ++ [t]) ++ post by simp, List.mem_append] at hw
      rcases hw with hw | hw
      · exact hw
      · rw [edges, List.countP_eq_zero] at hpost
        exact absurd (by simpa using hwk) (hpost w hw)
    have hle : ∀ u ∈ pre, key u ≤ key t := by
      rw [e, List.pairwise_append] at hso
      exact fun u hu => hso.2.2 u hu t (List.mem_cons_self ..)
    have hkt : key t = A := by
      have := h1 t (hin t (by simp)) htk
      rw [List.mem_append] at hwin
      rcases hwin with hwin | hwin
      · have := hle w hwin; omega
      · obtain rfl : w = t := by simpa using hwin
        exact hwA
    have hz := (hne pre (fun u hu => hin u (by simp [hu])) (fun u hu => by have := hle u hu; omega)).2
    exact ⟨t, hin t (by simp), by rw [e1, hz]; simp, hkt, htk⟩
  · exfalso
    -- the elements up to `A` form a prefix with all the opening edges
    have hp : s = s.takeWhile (fun u => decide (key u ≤ A)) ++ s.dropWhile (fun u => decide (key u ≤ A)) :=
      (List.takeWhile_append_dropWhile ..).symm
    have hdrop : ∀ u ∈ s.dropWhile (fun u => decide (key u ≤ A)), A < key u := by
      intro u hu
      have hso' : (s.dropWhile (fun u => decide (key u ≤ A))).Pairwise fun a b => key a ≤ key b :=
        hso.sublist (List.dropWhile_sublist _)
      cases hd : s.dropWhile (fun u => decide (key u ≤ A)) with
      | nil => rw [hd] at hu; simp at hu
      | cons v vs =>
        have hv : ¬ key v ≤ A := by
          have hne' : s.dropWhile (fun u => decide (key u ≤ A)) ≠ [] := by rw [hd]; simp
          have := List.head_dropWhile_not (fun u => decide (key u ≤ A)) hne'
          simp only [hd, List.head_cons] at this
          simpa using this
        rw [hd] at hu hso'
        rw [List.mem_cons] at hu
        rcases hu with rfl | hu
        · omega
        · have := (List.pairwise_cons.1 hso').1 u hu; omega
    have htake : ∀ u ∈ s.takeWhile (fun u => decide (key u ≤ A)), key u ≤ A := fun u hu => by
      simpa using List.all_eq_true.1 (List.all_takeWhile (l := s) (p := fun u => decide (key u ≤ A))) u hu
    generalize s.takeWhile (fun u => decide (key u ≤ A)) = p at hp htake
    generalize s.dropWhile (fun u => decide (key u ≤ A)) = q at hp hdrop
    have hpin : ∀ u ∈ p, u ∈ s := fun u hu => by rw [hp]; simp [hu]
    have hqin : ∀ u ∈ q, u ∈ s := fun u hu => by rw [hp]; simp [hu]
    have hq0 : edges k q = 0 := by
      rw [edges, List.countP_eq_zero]
      intro u hu hc
      have := h1 u (hqin u hu) (by simpa using hc)
      have := hdrop u hu
      omega
    have hp0 := (hne p hpin htake).1
    have ht := htot p (fun u hu => hty u (hpin u hu))
    have hsum : edges k s = edges k p + edges k q := by rw [← hmono, ← hp]
    rcases List.eq_nil_or_concat p with rfl | ⟨p', t', rfl⟩
    · rw [hq0, show edges k [] = 0 from rfl] at hsum; omega
    · have := e3 p' t' ⟨q, by rw [hp]; simp⟩
      simp only [List.concat_eq_append] at ht hp0 hsum
      omega

theorem insertBack_perm (x : Tuple) (l : List Tuple) : (insertBack x l).Perm (x :: l) := by
  induction l with
  | nil => exact .refl _
  | cons y ys ih =>
    unfold insertBack
    split
    · exact (List.Perm.cons y ih).trans (.swap x y ys)
    · exact .refl _

theorem insertBack_sorted (x : Tuple) (l : List Tuple) (h : l.Pairwise fun a b => less a b = false) :
    (insertBack x l).Pairwise fun a b => less a b = false := by
  induction l with
  | nil => simp [insertBack]
  | cons y ys ih =>
    rw [List.pairwise_cons] at h
    unfold insertBack
    split
    · rename_i hx
      rw [List.pairwise_cons]
      refine ⟨fun b hb => ?_, ih h.2⟩
      rcases List.mem_cons.1 ((insertBack_perm x ys).subset hb) with rfl | hb
      · simp [less] at hx ⊢; omega
      · exact h.1 b hb
    · rename_i hx
      rw [List.pairwise_cons]
      refine ⟨fun b hb => ?_, List.pairwise_cons.2 h⟩
      rcases List.mem_cons.1 hb with rfl | hb
      · simpa using hx
      · have := h.1 b hb
        simp [less] at hx this ⊢; omega

/-- The insertion sort sorts. -/
theorem insertionSort_sorts (l : List Tuple) : SortedTo l (insertionSort l) := by
  have key : ∀ (l acc : List Tuple), (acc.Pairwise fun a b => less a b = false) →
      (l.foldl (fun acc x => insertBack x acc) acc).Perm (acc ++ l) ∧
      (l.foldl (fun acc x => insertBack x acc) acc).Pairwise fun a b => less a b = false := by
    intro l
    induction l with
    | nil => intro acc h; simpa using h
    | cons x xs ih =>
      intro acc h
      obtain ⟨i1, i2⟩ := ih (insertBack x acc) (insertBack_sorted x acc h)
      refine ⟨i1.trans ?_, i2⟩
      exact ((insertBack_perm x acc).append_right xs).trans (by simpa using List.perm_middle.symm)
  obtain ⟨k1, k2⟩ := key l [] (by simp)
  exact ⟨(List.reverse_perm _).trans (by simpa using k1), by unfold insertionSort; rw [List.pairwise_reverse]; exact k2⟩

/-- What runs is a possible result. -/
theorem run_possible (is : List Interval) : Intersection is (run is) := by
  match is with
  | [] => exact .many [] _ (by simp) (insertionSort_sorts _)
  | [i] => exact .one i
  | i :: j :: is => exact .many _ _ (by simp) (insertionSort_sorts _)

theorem mem_tuples {is : List Interval} (h : ∀ i ∈ is, Sane i) {t : Tuple} :
    t ∈ tuples is ↔ ∃ i ∈ is, t = ⟨i.low, -1⟩ ∨ t = ⟨i.off, 0⟩ ∨ t = ⟨i.up, 1⟩ := by
  induction is with
  | nil => simp [tuples]
  | cons i is ih =>
    obtain ⟨_, h1, h2⟩ := h i (List.mem_cons_self ..)
    have e1 : wrap64 (i.off - i.band) = i.low := wrap64_of_in h1
    have e2 : wrap64 (i.off + i.band) = i.up := wrap64_of_in h2
    simp only [tuples, List.mem_cons, ih (fun u hu => h u (List.mem_cons_of_mem _ hu)), e1, e2, exists_eq_or_imp]
    simp only [or_assoc]

/-! ## C44 -/

/-- **C44** A reported agreement is one: for some number of faults below half the intervals, all but that
many contain the lower bound, all but that many contain the upper bound, and at most that many midpoints
are outside. For every order the sort may leave. -/
theorem C44_sound {is : List Interval} (hs : ∀ i ∈ is, Sane i) (h2 : 2 ≤ is.length) {a b : Int}
    (h : Intersection is (a, b, true)) :
    a ≤ b ∧ ∃ F, 2 * F < is.length ∧ is.length ≤ containing is a + F ∧ is.length ≤ containing is b + F ∧ outside is a b ≤ F := by
  generalize hr : (a, b, true) = r at h
  cases h with
  | one i => simp at h2
  | many _ s _ hso =>
    have hlen : s.length / 3 = is.length := by rw [hso.1.length_eq, length_tuples]; omega
    rw [intersection, hlen] at hr
    obtain ⟨f, x, y, m1, m2, hf, e1, e2, ea, eb, hab, hm⟩ := search_ok s is.length _ 0 0 a b (Nat.le_refl _) hr.symm
    obtain ⟨z0, _, _⟩ := zeros_sorted hs hso
    have hzr : zeros s.reverse = zeros s := by simp [zeros]
    refine ⟨hab, f, by omega, ?_⟩
    rcases scan_cases (-1) (is.length - f) s 0 0 with ⟨pre, t, post, d0, d1, d2, _⟩ | ⟨d1, _⟩
    · rw [d1, Prod.mk.injEq] at e1
      obtain ⟨u1, u2⟩ := scan_up hs hso d0 (need := is.length - f) (by omega)
      rcases scan_cases 1 (is.length - f) s.reverse 0 m1 with ⟨pre', t', post', c0, c1, c2, _⟩ | ⟨c1, _⟩
      · rw [c1, Prod.mk.injEq] at e2
        obtain ⟨v1, v2⟩ := scan_down hs hso c0 (need := is.length - f) (by omega)
        have xa := ea _ e1.1.symm
        have yb := eb _ e2.1.symm
        rw [← xa] at u1 u2
        rw [← yb] at v1 v2
        rw [outside_eq is hab]
        omega
      · rw [c1, Prod.mk.injEq] at e2
        omega
    · rw [d1, Prod.mk.injEq] at e1
      rcases scan_cases 1 (is.length - f) s.reverse 0 m1 with ⟨pre', t', post', c0, c1, c2, _⟩ | ⟨c1, _⟩
      · rw [c1, Prod.mk.injEq] at e2
        omega
      · rw [c1, Prod.mk.injEq] at e2
        omega

/-- Non-vacuity: four intervals, one of them wrong; the agreement of the other three is found. -/
example : Intersection [⟨0, 10⟩, ⟨1, 8⟩, ⟨100, 3⟩, ⟨2, 6⟩] (-4, 8, true) := by
  have := run_possible [⟨0, 10⟩, ⟨1, 8⟩, ⟨100, 3⟩, ⟨2, 6⟩]
  rwa [show run [⟨0, 10⟩, ⟨1, 8⟩, ⟨100, 3⟩, ⟨2, 6⟩] = (-4, 8, true) by decide] at this

/-! ## C45 -/

/-- **C45** If all the intervals agree on a range that has every midpoint strictly inside, the result is
that range, whatever the order left by the sort (and there is a result). -/
theorem C45_full_agreement {is : List Interval} (hs : ∀ i ∈ is, Sane i) (h2 : 2 ≤ is.length) {a b : Int}
    (ha : Agreement is a b) (hm : ∀ i ∈ is, a < i.off ∧ i.off < b) :
    (∃ r, Intersection is r) ∧ ∀ r, Intersection is r → r = (a, b, true) := by
  refine ⟨⟨_, run_possible is⟩, fun r h => ?_⟩
  cases h with
  | one i => simp at h2
  | many _ s _ hso =>
    have hlen : s.length / 3 = is.length := by rw [hso.1.length_eq, length_tuples]; omega
    obtain ⟨z0, z1, z2⟩ := zeros_sorted hs hso
    have hty : Typed s := fun u hu => typed_tuples is u (hso.1.subset hu)
    have htup : ∀ t ∈ s, ∃ i ∈ is, t = ⟨i.low, -1⟩ ∨ t = ⟨i.off, 0⟩ ∨ t = ⟨i.up, 1⟩ := fun t ht =>
      (mem_tuples hs).1 (hso.1.subset ht)
    have hmem : ∀ i ∈ is, ⟨i.low, -1⟩ ∈ s ∧ ⟨i.up, 1⟩ ∈ s := fun i hi =>
      ⟨hso.1.symm.subset ((mem_tuples hs).2 ⟨i, hi, Or.inl rfl⟩), hso.1.symm.subset ((mem_tuples hs).2 ⟨i, hi, Or.inr (Or.inr rfl)⟩)⟩
    obtain ⟨hall, ⟨i, hi, hia⟩, ⟨j, hj, hjb⟩⟩ := ha
    obtain ⟨t, _, t1, t2, _⟩ := scan_full (sgn := -1) (k := -1) (Or.inl ⟨rfl, rfl⟩) (fun t => t.off) (s := s) (A := a) hty
      (hso.2.imp (fun h => by simp [less] at h; omega))
      (fun t ht hk => by
        obtain ⟨i, hi, rfl | rfl | rfl⟩ := htup t ht
        · exact (hall i hi).1
        all_goals simp at hk)
      ⟨_, (hmem i hi).1, rfl, hia⟩
      (fun t ht hk => by
        obtain ⟨i, hi, rfl | rfl | rfl⟩ := htup t ht
        · simp at hk
        · exact (hm i hi).1
        · have := hall i hi; have := hm i hi; dsimp only; omega) 0
    obtain ⟨u, _, u1, u2, _⟩ := scan_full (sgn := 1) (k := 1) (Or.inr ⟨rfl, rfl⟩) (fun t => -t.off) (s := s.reverse) (A := -b)
      (fun u hu => hty u (by simpa using hu))
      (by rw [List.pairwise_reverse]; exact hso.2.imp (fun h => by simp [less] at h; omega))
      (fun t ht hk => by
        obtain ⟨i, hi, rfl | rfl | rfl⟩ := htup t (by simpa using ht)
        · simp at hk
        · simp at hk
        · have := (hall i hi).2; dsimp only; omega)
      ⟨_, by simpa using (hmem j hj).2, rfl, by dsimp only; omega⟩
      (fun t ht hk => by
        obtain ⟨i, hi, rfl | rfl | rfl⟩ := htup t (by simpa using ht)
        · have := hall i hi; have := hm i hi; dsimp only; omega
        · have := (hm i hi).2; dsimp only; omega
        · simp at hk) 0
    rw [show edges 1 s.reverse = edges 1 s by simp [edges], z2] at u1
    rw [z1] at t1
    rw [intersection, hlen]
    obtain ⟨k, hk⟩ : ∃ k, is.length / 2 = k + 1 := ⟨is.length / 2 - 1, by omega⟩
    have hlt := hm i hi
    rw [hk]
    simp only [search, hk, Nat.sub_self, Int.natCast_zero, Int.sub_zero, t1, u1, Option.getD_some]
    rw [if_pos (by omega), t2, show u.off = b by omega]

/-- **C45** No interval: not ok. One interval: its bounds. -/
theorem C45_few : (∀ r, Intersection [] r → r.2.2 = false) ∧
    ∀ i, Sane i → ∀ r, Intersection [i] r → r = (i.low, i.up, true) := by
  refine ⟨fun r h => ?_, fun i hi r h => ?_⟩
  · cases h with
    | many _ s _ hso =>
      obtain rfl : s = [] := List.perm_nil.1 hso.1
      rfl
  · cases h with
    | one => exact Prod.ext (wrap64_of_in hi.2.1) (Prod.ext (wrap64_of_in hi.2.2) rfl)
    | many _ s h _ => exact absurd rfl h

/-- Non-vacuity: the three intervals of the repository's test. -/
example : Agreement [⟨5, 10⟩, ⟨2, 5⟩, ⟨3, 6⟩] (-3) 7 ∧ ∀ i ∈ [(⟨5, 10⟩ : Interval), ⟨2, 5⟩, ⟨3, 6⟩], -3 < i.off ∧ i.off < 7 := by
  unfold Agreement; decide

/-! ## C46 -/

/-- **C46** is false of the code, with the sort Go runs: swapping two overlapping intervals whose edges
meet the midpoints changes the answer, and two identical intervals of width zero do not intersect. -/
theorem C46_refuted : (run [⟨0, 1⟩, ⟨1, 1⟩]).2.2 = false ∧ run [⟨1, 1⟩, ⟨0, 1⟩] = (0, 1, true) ∧
    (run [⟨5, 0⟩, ⟨5, 0⟩]).2.2 = false := by decide

/-- No two edges or midpoints of different kinds at the same place. -/
def NoTies (is : List Interval) : Prop := ∀ t ∈ tuples is, ∀ u ∈ tuples is, t.off = u.off → t.typ = u.typ

theorem tuples_perm {is js : List Interval} (h : is.Perm js) : (tuples is).Perm (tuples js) := by
  induction h with
  | nil => exact .refl _
  | cons x _ ih => exact ((ih.cons _).cons _).cons _
  | swap x y l =>
    simp only [tuples]
    have : ∀ a b : List Tuple, (a ++ (b ++ tuples l)).Perm (b ++ (a ++ tuples l)) := fun a b => by
      rw [← List.append_assoc, ← List.append_assoc]; exact List.perm_append_comm.append_right _
    exact this [_, _, _] [_, _, _]
  | trans _ _ i1 i2 => exact i1.trans i2

/-- **C46** (partial: the full statement is for all intervals; missing are those where edges or midpoints
of different kinds coincide.) Otherwise every order of the arguments, however the sort orders equal
offsets, gives the same answer. -/
theorem C46_order_partial {is js : List Interval} (h : NoTies is) (hp : is.Perm js) {r r' : Int × Int × Bool}
    (hr : Intersection is r) (hr' : Intersection js r') : r = r' := by
  cases hr with
  | one i =>
    obtain rfl : js = [i] := by simpa using hp.symm
    cases hr' with
    | one => rfl
    | many _ s h _ => exact absurd rfl h
  | many _ s hl hso =>
    generalize hj : js = js' at hr'
    cases hr' with
    | one i => exact absurd (by rw [hp.length_eq, hj]; rfl) hl
    | many _ s' hl' hso' =>
      subst hj
      have e : s = s' := by
        refine List.Perm.eq_of_pairwise ?_ hso.2 hso'.2 (hso.1.trans ((tuples_perm hp).trans hso'.1.symm))
        intro a b ha hb h1 h2
        have hb' := (tuples_perm hp).symm.subset (hso'.1.subset hb)
        simp [less] at h1 h2
        have e := (by omega : a.off = b.off)
        cases a; cases b
        simp only [Tuple.mk.injEq]
        exact ⟨e, h _ (hso.1.subset ha) _ hb' e⟩
      rw [e]

/-- **C46** (partial in the same way.) Any number of copies of an interval of positive width intersect in
that interval. -/
theorem C46_identical_partial {i : Interval} (hi : Sane i) (hw : 0 < i.band) {n : Nat} (hn : 0 < n) {r : Int × Int × Bool}
    (hr : Intersection (List.replicate n i) r) : r = (i.low, i.up, true) := by
  match n, hn with
  | 1, _ => exact C45_few.2 i hi r hr
  | n + 2, _ =>
    refine (C45_full_agreement (fun j hj => ?_) (by simp) ⟨fun j hj => ?_, ⟨i, by simp, rfl⟩, ⟨i, by simp, rfl⟩⟩ (fun j hj => ?_)).2 r hr
    · rw [List.eq_of_mem_replicate hj]; exact hi
    · rw [List.eq_of_mem_replicate hj]; exact ⟨Int.le_refl _, Int.le_refl _⟩
    · rw [List.eq_of_mem_replicate hj]; unfold Interval.low Interval.up; omega

/-- Non-vacuity. -/
example : NoTies [⟨0, 10⟩, ⟨1, 8⟩, ⟨100, 3⟩, ⟨2, 6⟩] := by unfold NoTies; decide

end Verif.Inter
