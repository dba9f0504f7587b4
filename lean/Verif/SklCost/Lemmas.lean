import Verif.SklCost.Model
import Verif.Skl.Refine
/-!
# What a search compares
-/
set_option linter.unusedSectionVars false
namespace Verif.SklCost
open Verif.Go Verif.Skl Verif.MapSpec

variable {K V : Type} [GoOrdered K]

/-! ## Without the comparisons it is the model of `Verif.Skl` -/

theorem andThen_fst {α β : Type} (p : Outcome α × List (Ask K)) (f : α → Outcome β × List (Ask K)) :
    (andThen p f).1 = p.1.bind fun a => (f a).1 := by
  obtain ⟨o, c⟩ := p
  cases o <;> rfl

/-- If nothing is compared afterwards. -/
theorem andThen_snd {α β : Type} (p : Outcome α × List (Ask K)) (f : α → Outcome β × List (Ask K))
    (h : ∀ a, (f a).2 = []) : (andThen p f).2 = p.2 := by
  obtain ⟨o, c⟩ := p
  cases o <;> simp [andThen, h]

theorem walk_fst (m : Addr → Node K V) (tail : Addr) (i : Nat) (key : K) : ∀ (fuel : Nat) (x : Addr),
    (walk m tail i key fuel x).1 = Skl.walk m tail i key fuel x
  | 0, _ => rfl
  | fuel + 1, x => by
    simp only [walk, Skl.walk]
    cases (m x).next i with
    | none => rfl
    | some y =>
      simp only
      split
      · rfl
      · split
        · exact walk_fst m tail i key fuel y
        · rfl

theorem searchLoop_fst (m : Addr → Node K V) (tail : Addr) (key : K) (fuel : Nat) :
    ∀ (n : Nat) (x : Addr) (ctx : Nat → Option Addr),
      (searchLoop m tail key fuel n x ctx).1 = Skl.searchLoop m tail key fuel n x ctx
  | 0, _, _ => rfl
  | n + 1, x, ctx => by
    simp only [searchLoop, Skl.searchLoop, andThen_fst, walk_fst]
    congr
    funext y
    exact searchLoop_fst m tail key fuel n y _

theorem search_fst (w : World K V) (key : K) : (search w key).1 = Skl.search w key := by
  unfold search Skl.search
  rw [andThen_fst, searchLoop_fst]
  congr
  funext p
  obtain ⟨x, ctx⟩ := p
  simp only
  cases (w.heap.mem x).next 0 with
  | none => rfl
  | some y =>
    simp only
    by_cases h1 : y = w.skl.tail
    · simp [h1]
    · by_cases h2 : GoOrdered.eq (w.heap.mem y).key key = false
      · simp [h1, h2]
      · simp [h1, h2]

theorem get_fst (w : World K V) (k : K) : (get w k).1 = Skl.get w k := by
  unfold get Skl.get
  rw [andThen_fst, search_fst]
  congr
  funext p
  obtain ⟨_ | x, ctx⟩ := p <;> rfl

theorem set_fst (w : World K V) (k : K) (v : V) : (set w k v).1 = Skl.set w k v := by
  unfold set Skl.set Skl.insert Skl.insertWith
  rw [andThen_fst, search_fst]
  congr
  funext p
  obtain ⟨_ | x, ctx⟩ := p <;> rfl

theorem del_fst (w : World K V) (k : K) : (del w k).1 = Skl.del w k := by
  unfold del Skl.del Skl.delete
  rw [andThen_fst, search_fst]
  congr
  funext p
  obtain ⟨_ | x, ctx⟩ := p <;> rfl

theorem seek_fst (w : World K V) (it : Iter) (k : K) : (seek w it k).1 = Skl.seek w it k := by
  unfold seek Skl.seek
  rw [andThen_fst, search_fst]
  congr
  funext p
  obtain ⟨_ | x, ctx⟩ := p <;> rfl

theorem get_snd (w : World K V) (k : K) : (get w k).2 = (search w k).2 := by
  unfold get
  refine andThen_snd _ _ ?_
  rintro ⟨_ | x, ctx⟩ <;> rfl

theorem set_snd (w : World K V) (k : K) (v : V) : (set w k v).2 = (search w k).2 := by
  unfold set
  refine andThen_snd _ _ ?_
  rintro ⟨_ | x, ctx⟩ <;> rfl

theorem del_snd (w : World K V) (k : K) : (del w k).2 = (search w k).2 := by
  unfold del
  refine andThen_snd _ _ ?_
  rintro ⟨_ | x, ctx⟩ <;> rfl

theorem seek_snd (w : World K V) (it : Iter) (k : K) : (seek w it k).2 = (search w k).2 := by
  unfold seek
  refine andThen_snd _ _ ?_
  rintro ⟨_ | x, ctx⟩ <;> rfl

/-! ## The comparisons -/

/-- The addresses behind the comparisons of a walk: those moved to, and then the one not moved to. -/
theorem walk_spec {m : Addr → Node K V} {tl : Addr} {i : Nat} {k : K} :
    ∀ {A : List Addr} {x : Addr} {B : List Addr} {fuel : Nat},
      Chain (fun a => (m a).next i) tl x (A ++ B) →
      (∀ a ∈ A, a ≠ tl ∧ GoOrdered.lt (m a).key k = true) →
      (∀ b ∈ B, b ≠ tl ∧ GoOrdered.lt (m b).key k = false) → A.length < fuel →
      walk m tl i k fuel x = (.ret (lastOf x A), (A ++ B.take 1).map fun a => .less (m a).key)
  | [], x, [], fuel + 1, h, _, _, _ => by
    have h : (m x).next i = some tl := h
    simp [walk, h]
  | [], x, b :: B, fuel + 1, h, _, hB, _ => by
    have h : (m x).next i = some b := h.1
    simp [walk, h, hB b (by simp)]
  | a :: A, x, B, fuel + 1, h, hA, hB, hf => by
    have h1 : (m x).next i = some a := h.1
    have ha := hA a (by simp)
    have ih := walk_spec (A := A) (x := a) (B := B) (fuel := fuel) h.2
      (fun b hb => hA b (by simp [hb])) hB (by simp at hf; omega)
    simp [walk, h1, ha.1, ha.2, ih]

/-- The last node of a level splits the list in two. -/
theorem last_split (p : Addr → Bool) : ∀ (S : List Addr), S.filter p ≠ [] →
    ∃ S0 y S1, S = S0 ++ y :: S1 ∧ p y = true ∧ S1.filter p = []
  | [], h => absurd rfl h
  | a :: S, h => by
    by_cases hS : S.filter p = []
    · have ha : p a = true := by
        by_contra hc
        apply h
        simp [List.filter_cons, hc, hS]
      exact ⟨[], a, S, rfl, ha, hS⟩
    · obtain ⟨S0, y, S1, e, h1, h2⟩ := last_split p S hS
      exact ⟨a :: S0, y, S1, by simp [e], h1, h2⟩

/-- Addresses whose keys were asked about: those moved to, and the others, at most `n`. -/
structure Visited (w : World K V) (k : K) (S T : List Addr) (n : Nat) (c : List Addr) : Prop where
  moved : (c.filter fun a => GoOrdered.lt (w.heap.mem a).key k).Sublist S
  stopped : (c.filter fun a => !GoOrdered.lt (w.heap.mem a).key k).length ≤ n
  mem : ∀ a ∈ c, a ∈ S ∨ a ∈ T

theorem searchLoop_spec {w : World K V} {k : K} {T : List Addr}
    (hT : ∀ b ∈ T, b ≠ w.skl.tail ∧ GoOrdered.lt (w.heap.mem b).key k = false) :
    ∀ (n : Nat) (x : Addr) (ctx : Nat → Option Addr) (S : List Addr),
      (∀ a ∈ S, a ≠ w.skl.tail ∧ GoOrdered.lt (w.heap.mem a).key k = true) → S.length < w.heap.brk + 1 →
      (∀ i < n, Chain (fun a => (w.heap.mem a).next i) w.skl.tail x
        ((S.filter fun a => decide (i < (w.heap.mem a).height)) ++
          T.filter fun a => decide (i < (w.heap.mem a).height))) →
      ∃ c, (searchLoop w.heap.mem w.skl.tail k (w.heap.brk + 1) n x ctx).2 =
          c.map (fun a => .less (w.heap.mem a).key) ∧ Visited w k S T n c
  | 0, x, ctx, S, _, _, _ => ⟨[], rfl, by simp, by simp, by simp⟩
  | n + 1, x, ctx, S, hS, hl, hc => by
    have hw := walk_spec (hc n (by omega)) (fun a ha => hS a (List.mem_filter.1 ha).1)
      (fun b hb => hT b (List.mem_filter.1 hb).1)
      (Nat.lt_of_le_of_lt (List.length_filter_le _ _) hl)
    simp only [searchLoop, hw, andThen]
    -- what the level compares
    have hA : ∀ a ∈ S.filter (fun a => decide (n < (w.heap.mem a).height)), GoOrdered.lt (w.heap.mem a).key k = true :=
      fun a ha => (hS a (List.mem_filter.1 ha).1).2
    have hB : ∀ b ∈ (T.filter (fun a => decide (n < (w.heap.mem a).height))).take 1,
        b ∈ T ∧ GoOrdered.lt (w.heap.mem b).key k = false := fun b hb =>
      have := (List.mem_filter.1 (List.mem_of_mem_take hb)).1
      ⟨this, (hT b this).2⟩
    have fA1 : (S.filter (fun a => decide (n < (w.heap.mem a).height))).filter
        (fun a => GoOrdered.lt (w.heap.mem a).key k) = S.filter (fun a => decide (n < (w.heap.mem a).height)) :=
      List.filter_eq_self.2 hA
    have fA2 : (S.filter (fun a => decide (n < (w.heap.mem a).height))).filter
        (fun a => !GoOrdered.lt (w.heap.mem a).key k) = [] :=
      List.filter_eq_nil_iff.2 fun a ha => by simp [hA a ha]
    have fB1 : ((T.filter (fun a => decide (n < (w.heap.mem a).height))).take 1).filter
        (fun a => GoOrdered.lt (w.heap.mem a).key k) = [] :=
      List.filter_eq_nil_iff.2 fun a ha => by simp [(hB a ha).2]
    have fB2 : (((T.filter (fun a => decide (n < (w.heap.mem a).height))).take 1).filter
        (fun a => !GoOrdered.lt (w.heap.mem a).key k)).length ≤ 1 :=
      Nat.le_trans (List.length_filter_le _ _) (List.length_take_le _ _)
    generalize hy : lastOf x (S.filter fun a => decide (n < (w.heap.mem a).height)) = y
    by_cases he : S.filter (fun a => decide (n < (w.heap.mem a).height)) = []
    · rw [he] at hy fA1 fA2 ⊢
      simp only [lastOf_nil] at hy
      subst hy
      obtain ⟨c, e, v⟩ := searchLoop_spec hT n x (fun j => if j = n then some x else ctx j) S hS hl
        (fun i hi => hc i (by omega))
      refine ⟨(T.filter (fun a => decide (n < (w.heap.mem a).height))).take 1 ++ c, ?_, ?_, ?_, ?_⟩
      · rw [e]; simp
      · rw [List.filter_append, fB1]; exact v.moved
      · rw [List.filter_append, List.length_append]
        have := v.stopped
        omega
      · intro a ha
        rcases List.mem_append.1 ha with h | h
        · exact .inr (hB a h).1
        · exact v.mem a h
    · obtain ⟨S0, z, S1, hz, pz, hS1⟩ := last_split _ S he
      have hzy : z = y := by
        rw [hz, List.filter_append, List.filter_cons, if_pos pz, lastOf_append_cons, hS1] at hy
        exact hy
      subst hzy
      have hpz : n < (w.heap.mem z).height := by simpa using pz
      obtain ⟨c, e, v⟩ := searchLoop_spec hT n z (fun j => if j = n then some z else ctx j) S1
        (fun a ha => hS a (by rw [hz]; simp [ha])) (by rw [hz] at hl; simp at hl; omega)
        (fun i hi => by
          have := hc i (by omega)
          rw [hz, List.filter_append, List.filter_cons, if_pos (by simp; omega), List.append_assoc,
            List.cons_append] at this
          exact this.drop)
      refine ⟨S.filter (fun a => decide (n < (w.heap.mem a).height)) ++
        ((T.filter (fun a => decide (n < (w.heap.mem a).height))).take 1 ++ c), ?_, ?_, ?_, ?_⟩
      · rw [e]; simp
      · rw [List.filter_append, List.filter_append, fA1, fB1, List.nil_append]
        have h1 : S.filter (fun a => decide (n < (w.heap.mem a).height)) =
            (S0 ++ [z]).filter fun a => decide (n < (w.heap.mem a).height) := by
          rw [hz, List.filter_append, List.filter_append, List.filter_cons, if_pos pz, hS1, List.filter_cons,
            if_pos pz]
          rfl
        have h2 : S = (S0 ++ [z]) ++ S1 := by rw [hz]; simp
        rw [h1]
        exact h2 ▸ List.Sublist.append List.filter_sublist v.moved
      · rw [List.filter_append, List.filter_append, fA2, List.nil_append, List.length_append]
        have := v.stopped
        omega
      · intro a ha
        rcases List.mem_append.1 ha with h | h
        · exact .inl (List.mem_filter.1 h).1
        · rcases List.mem_append.1 h with h | h
          · exact .inr (hB a h).1
          · rcases v.mem a h with h | h
            · left; rw [hz]; simp [h]
            · exact .inr h

variable [LawfulOrdered K]

/-- The comparisons of a search: `<` against the keys of `c`, then `!=` against at most one key. -/
theorem search_spec {w : World K V} {nodes : List Addr} (r : Rep w nodes) (k : K) :
    ∃ c d : List Addr, (search w k).2 = c.map (fun a => .less (w.heap.mem a).key) ++
        d.map (fun a => .differ (w.heap.mem a).key) ∧
      Visited w k (before w nodes k) (after w nodes k) maxHeight c ∧ d.length ≤ 1 ∧ ∀ a ∈ d, a ∈ nodes := by
  have hT : ∀ b ∈ after w nodes k, b ≠ w.skl.tail ∧ GoOrdered.lt (w.heap.mem b).key k = false := by
    intro b hb
    simp [after] at hb
    exact ⟨r.ne_tail b hb.1, hb.2⟩
  have hS : ∀ b ∈ before w nodes k, b ≠ w.skl.tail ∧ GoOrdered.lt (w.heap.mem b).key k = true := by
    intro b hb
    simp [before] at hb
    exact ⟨r.ne_tail b hb.1, hb.2⟩
  have hl : (before w nodes k).length < w.heap.brk + 1 := by
    have := r.length_le
    have := List.length_filter_le (fun a => GoOrdered.lt (w.heap.mem a).key k) nodes
    simp only [before]
    omega
  obtain ⟨c, e, v⟩ := searchLoop_spec hT maxHeight w.skl.head (fun _ => none) (before w nodes k) hS hl
    (fun i hi => r.chain_split k hi)
  have e1 := searchLoop_fst w.heap.mem w.skl.tail k (w.heap.brk + 1) maxHeight w.skl.head (fun _ => none)
  obtain ⟨ctx, h1, _⟩ := r.searchLoop k maxHeight w.skl.head (fun _ => none) (Nat.le_refl _) (.inl rfl)
  rw [if_neg (by decide)] at h1
  rw [h1] at e1
  have e2 : searchLoop w.heap.mem w.skl.tail k (w.heap.brk + 1) maxHeight w.skl.head (fun _ => none) =
      (.ret (pred w nodes k 0, ctx), c.map fun a => .less (w.heap.mem a).key) := Prod.ext e1 e
  have hn : ∀ y, (w.heap.mem (pred w nodes k 0)).next 0 = some y → y ≠ w.skl.tail → y ∈ nodes := by
    intro y hy ht
    have hh := (r.chain_split k (i := 0) (by decide)).next_last
    cases hB : (after w nodes k).filter fun a => decide (0 < (w.heap.mem a).height) with
    | nil =>
      rw [hB] at hh
      have hh : (w.heap.mem (pred w nodes k 0)).next 0 = some w.skl.tail := hh
      rw [hy] at hh
      exact absurd (Option.some.inj hh) ht
    | cons b B =>
      rw [hB] at hh
      have hh : (w.heap.mem (pred w nodes k 0)).next 0 = some b := hh.1
      rw [hy] at hh
      have : y ∈ (after w nodes k).filter fun a => decide (0 < (w.heap.mem a).height) := by
        rw [hB, Option.some.inj hh]; simp
      have := (List.mem_filter.1 this).1
      simp [after] at this
      exact this.1
  unfold search
  rw [e2]
  simp only [andThen]
  cases hx : (w.heap.mem (pred w nodes k 0)).next 0 with
  | none => exact ⟨c, [], by simp, v, by simp, by simp⟩
  | some y =>
    simp only
    by_cases h1 : y = w.skl.tail
    · exact ⟨c, [], by simp [h1], v, by simp, by simp⟩
    · by_cases h2 : GoOrdered.eq (w.heap.mem y).key k = false
      · exact ⟨c, [y], by simp [h1, h2], v, by simp, by simpa using hn y hx h1⟩
      · exact ⟨c, [y], by simp [h1, h2], v, by simp, by simpa using hn y hx h1⟩

end Verif.SklCost
