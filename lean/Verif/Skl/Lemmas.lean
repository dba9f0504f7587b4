import Verif.Prelude
import Verif.Skl.Model
import Verif.Skl.Spec

/-! # The skip-list representation invariant and what each operation does to it -/
set_option linter.unusedSectionVars false

namespace Verif.Skl
open Verif.Go

/-- Following `nx` from `a` visits exactly `l` and then reaches `tl`. -/
def Chain (nx : Addr → Option Addr) (tl : Addr) : Addr → List Addr → Prop
  | a, [] => nx a = some tl
  | a, b :: l => nx a = some b ∧ Chain nx tl b l

theorem Chain.drop {nx : Addr → Option Addr} {tl : Addr} :
    ∀ {P : List Addr} {a x : Addr} {S : List Addr}, Chain nx tl a (P ++ x :: S) → Chain nx tl x S
  | [], _, _, _, h => h.2
  | _ :: P, _, _, _, h => Chain.drop (P := P) h.2

theorem Chain.congr {nx nx' : Addr → Option Addr} {tl : Addr} :
    ∀ {l : List Addr} {a a' : Addr}, nx' a' = nx a → (∀ b ∈ l, nx' b = nx b) →
      Chain nx tl a l → Chain nx' tl a' l
  | [], _, _, ha, _, h => by simpa [Chain, ha] using h
  | b :: l, _, _, ha, hl, h => by
    refine ⟨by rw [ha]; exact h.1, Chain.congr (a := b) (hl b (by simp)) (fun c hc => hl c (by simp [hc])) h.2⟩

/-- The last element of `a :: A`. -/
def lastOf (a : Addr) (A : List Addr) : Addr := (a :: A).getLast (by simp)

@[simp] theorem lastOf_nil (a : Addr) : lastOf a [] = a := rfl
@[simp] theorem lastOf_cons (a x : Addr) (A : List Addr) : lastOf a (x :: A) = lastOf x A := by
  simp [lastOf]
theorem lastOf_mem (a : Addr) (A : List Addr) : lastOf a A ∈ a :: A := List.getLast_mem _

theorem lastOf_append_cons (a x : Addr) (P S : List Addr) : lastOf a (P ++ x :: S) = lastOf x S := by
  induction P generalizing a with
  | nil => simp
  | cons p P ih => simp [ih]

theorem Chain.next_last {nx : Addr → Option Addr} {tl : Addr} :
    ∀ {A : List Addr} {a : Addr} {B : List Addr}, Chain nx tl a (A ++ B) →
      Chain nx tl (lastOf a A) B
  | [], _, _, h => h
  | x :: A, _, _, h => by simpa using Chain.next_last (A := A) h.2

/-- Inserting `n` after the last node of `a :: A`. -/
theorem Chain.insert {nx nx' : Addr → Option Addr} {tl n : Addr} :
    ∀ {A : List Addr} {a : Addr} {B : List Addr}, (a :: (A ++ B)).Nodup → n ∉ a :: (A ++ B) →
      nx' n = nx (lastOf a A) → nx' (lastOf a A) = some n →
      (∀ b, b ≠ n → b ≠ lastOf a A → nx' b = nx b) →
      Chain nx tl a (A ++ B) → Chain nx' tl a (A ++ n :: B)
  | [], a, B, nd, hn, h1, h2, h3, h => by
    refine ⟨h2, Chain.congr (a := a) h1 (fun b hb => h3 b ?_ ?_) h⟩
    · rintro rfl; simp at hn; exact hn.2 hb
    · rintro rfl; simp at nd; exact nd.1 hb
  | x :: A, a, B, nd, hn, h1, h2, h3, h => by
    simp only [lastOf_cons] at *
    have nd' : (x :: (A ++ B)).Nodup := (List.nodup_cons.1 nd).2
    have hal : a ≠ lastOf x A := by
      rintro rfl
      have := lastOf_mem x A
      simp at nd this
      rcases this with h | h
      · exact nd.1.1 h
      · exact nd.1.2.1 h
    refine ⟨?_, Chain.insert nd' (by simp at hn ⊢; tauto) h1 h2 h3 h.2⟩
    rw [h3 a (by rintro rfl; simp at hn) hal]
    exact h.1

/-- Removing `x`, which follows the last node of `a :: A`. -/
theorem Chain.remove {nx nx' : Addr → Option Addr} {tl x : Addr} :
    ∀ {A : List Addr} {a : Addr} {B : List Addr}, (a :: (A ++ x :: B)).Nodup →
      nx' (lastOf a A) = nx x → (∀ b, b ≠ lastOf a A → nx' b = nx b) →
      Chain nx tl a (A ++ x :: B) → Chain nx' tl a (A ++ B)
  | [], a, B, nd, h1, h3, h => by
    simp at nd
    refine Chain.congr (a := x) h1 (fun b hb => h3 b ?_) h.2
    rintro rfl; tauto
  | y :: A, a, B, nd, h1, h3, h => by
    simp only [lastOf_cons] at *
    have hal : a ≠ lastOf y A := by
      rintro rfl
      have := lastOf_mem y A
      simp at nd this
      rcases this with h | h
      · exact nd.1.1 h
      · exact nd.1.2.1 h
    exact ⟨by rw [h3 a hal]; exact h.1, Chain.remove (List.nodup_cons.1 nd).2 h1 h3 h.2⟩

section
variable {K V : Type} [GoOrdered K]

/-- The representation invariant: `nodes` are the addresses of the entries in key order. -/
structure Rep (w : World K V) (nodes : List Addr) : Prop where
  head_lt : w.skl.head < w.heap.brk
  tail_lt : w.skl.tail < w.heap.brk
  head_ne : w.skl.head ≠ w.skl.tail
  lt_brk : ∀ a ∈ nodes, a < w.heap.brk
  ne_head : ∀ a ∈ nodes, a ≠ w.skl.head
  ne_tail : ∀ a ∈ nodes, a ≠ w.skl.tail
  sorted : nodes.Pairwise fun a b => GoOrdered.lt (w.heap.mem a).key (w.heap.mem b).key = true
  height : ∀ a ∈ nodes, 1 ≤ (w.heap.mem a).height ∧ (w.heap.mem a).height ≤ maxHeight
  chain : ∀ i < maxHeight, Chain (fun a => (w.heap.mem a).next i) w.skl.tail w.skl.head
    (nodes.filter fun a => decide (i < (w.heap.mem a).height))
  tail_next : (w.heap.mem w.skl.tail).next 0 = none
  len : w.skl.len = nodes.length

variable [LawfulOrdered K]

theorem lt_asymm {a b : K} (h : GoOrdered.lt a b = true) : GoOrdered.lt b a = false := by
  cases hb : GoOrdered.lt b a with
  | false => rfl
  | true => have := LawfulOrdered.trans _ _ _ h hb; rw [LawfulOrdered.irrefl] at this; cases this

theorem Rep.nodup {w : World K V} {nodes : List Addr} (r : Rep w nodes) : nodes.Nodup := by
  refine r.sorted.imp ?_
  rintro a b h rfl
  rw [LawfulOrdered.irrefl] at h; cases h

/-- The nodes with a key smaller than `k`, and the others. -/
def before (w : World K V) (nodes : List Addr) (k : K) : List Addr :=
  nodes.filter fun a => GoOrdered.lt (w.heap.mem a).key k
def after (w : World K V) (nodes : List Addr) (k : K) : List Addr :=
  nodes.filter fun a => !GoOrdered.lt (w.heap.mem a).key k

theorem split_sorted {f : Addr → K} {k : K} : ∀ {nodes : List Addr},
    nodes.Pairwise (fun a b => GoOrdered.lt (f a) (f b) = true) →
    nodes = nodes.filter (fun a => GoOrdered.lt (f a) k) ++ nodes.filter (fun a => !GoOrdered.lt (f a) k)
  | [], _ => rfl
  | a :: l, h => by
    have h' := List.pairwise_cons.1 h
    have ih := split_sorted (k := k) h'.2
    by_cases ha : GoOrdered.lt (f a) k = true
    · simp [ha]; exact ih
    · have hl : ∀ b ∈ l, GoOrdered.lt (f b) k = false := by
        intro b hb
        cases hc : GoOrdered.lt (f b) k with
        | false => rfl
        | true => exact absurd (LawfulOrdered.trans _ _ _ (h'.1 b hb) hc) ha
      have e1 : l.filter (fun a => GoOrdered.lt (f a) k) = [] := by
        simp [List.filter_eq_nil_iff]; exact hl
      have e2 : l.filter (fun a => !GoOrdered.lt (f a) k) = l := by
        rw [List.filter_eq_self]; intro b hb; simp [hl b hb]
      have ha' : GoOrdered.lt (f a) k = false := by simpa using ha
      simp [ha', e1, e2]

theorem Rep.split {w : World K V} {nodes : List Addr} (r : Rep w nodes) (k : K) :
    nodes = before w nodes k ++ after w nodes k := split_sorted (f := fun a => (w.heap.mem a).key) r.sorted

/-- What `ctx[i]` is after a search for `k`: the last node of level `i` with a smaller key. -/
def pred (w : World K V) (nodes : List Addr) (k : K) (i : Nat) : Addr :=
  lastOf w.skl.head ((before w nodes k).filter fun a => decide (i < (w.heap.mem a).height))

omit [LawfulOrdered K] in
theorem walk_spec {m : Addr → Node K V} {tl : Addr} {i : Nat} {k : K} :
    ∀ {A : List Addr} {x : Addr} {B : List Addr} {fuel : Nat},
      Chain (fun a => (m a).next i) tl x (A ++ B) →
      (∀ a ∈ A, a ≠ tl ∧ GoOrdered.lt (m a).key k = true) →
      (∀ b ∈ B, GoOrdered.lt (m b).key k = false) → A.length < fuel →
      walk m tl i k fuel x = .ret (lastOf x A)
  | [], x, [], fuel + 1, h, _, _, _ => by
    have h : (m x).next i = some tl := h
    simp [walk, h]
  | [], x, b :: B, fuel + 1, h, _, hB, _ => by
    have h : (m x).next i = some b := h.1
    simp [walk, h, hB b (by simp)]
  | a :: A, x, B, fuel + 1, h, hA, hB, hf => by
    have h1 : (m x).next i = some a := h.1
    have ha := hA a (by simp)
    have ih := walk_spec (A := A) (x := a) (B := B) (fuel := fuel) h.2
      (fun b hb => hA b (by simp [hb])) hB (by simp at hf; omega)
    simp [walk, h1, ha.1, ha.2, ih]

theorem Rep.length_le {w : World K V} {nodes : List Addr} (r : Rep w nodes) :
    nodes.length ≤ w.heap.brk := by
  have h1 : nodes.Subperm (List.range w.heap.brk) :=
    List.subperm_of_subset r.nodup (fun a ha => by simpa using r.lt_brk a ha)
  simpa using h1.length_le

theorem Rep.mem_before {w : World K V} {nodes : List Addr} {k : K} {a : Addr} :
    a ∈ before w nodes k ↔ a ∈ nodes ∧ GoOrdered.lt (w.heap.mem a).key k = true := by
  simp [before]

theorem Rep.chain_split {w : World K V} {nodes : List Addr} (r : Rep w nodes) (k : K) {i : Nat}
    (hi : i < maxHeight) : Chain (fun a => (w.heap.mem a).next i) w.skl.tail w.skl.head
      (((before w nodes k).filter fun a => decide (i < (w.heap.mem a).height)) ++
       ((after w nodes k).filter fun a => decide (i < (w.heap.mem a).height))) := by
  have h := r.chain i hi
  rw [r.split k, List.filter_append] at h
  exact h

theorem Rep.walk {w : World K V} {nodes : List Addr} (r : Rep w nodes) (k : K) {i : Nat}
    (hi : i < maxHeight) {x : Addr}
    (hx : x = w.skl.head ∨ x ∈ (before w nodes k).filter fun a => decide (i < (w.heap.mem a).height)) :
    Skl.walk w.heap.mem w.skl.tail i k (w.heap.brk + 1) x = .ret (pred w nodes k i) := by
  have hc := r.chain_split k hi
  have hbefore : ∀ a ∈ before w nodes k, a ≠ w.skl.tail ∧ GoOrdered.lt (w.heap.mem a).key k = true := by
    intro a ha; rw [Rep.mem_before] at ha; exact ⟨r.ne_tail a ha.1, ha.2⟩
  have hB : ∀ b ∈ (after w nodes k).filter (fun a => decide (i < (w.heap.mem a).height)),
      GoOrdered.lt (w.heap.mem b).key k = false := by
    intro b hb; simp [after] at hb; exact hb.2.2
  have hlen : ((before w nodes k).filter fun a => decide (i < (w.heap.mem a).height)).length < w.heap.brk + 1 := by
    have h1 := List.length_filter_le (fun a => decide (i < (w.heap.mem a).height)) (before w nodes k)
    have h2 := List.length_filter_le (fun a => GoOrdered.lt (w.heap.mem a).key k) nodes
    have h3 := r.length_le
    simp only [before] at *
    omega
  rcases hx with rfl | hx
  · exact walk_spec hc (fun a ha => hbefore a (List.mem_filter.1 ha).1) hB hlen
  · obtain ⟨P, S, hPS⟩ := List.append_of_mem hx
    unfold pred
    rw [hPS] at hc hlen ⊢
    rw [lastOf_append_cons]
    rw [List.append_assoc, List.cons_append] at hc
    refine walk_spec hc.drop (fun a ha => hbefore a ?_) hB (by simp at hlen; omega)
    have : a ∈ (before w nodes k).filter fun a => decide (i < (w.heap.mem a).height) := by
      rw [hPS]; simp [ha]
    exact (List.mem_filter.1 this).1

theorem pred_mem (w : World K V) (nodes : List Addr) (k : K) (i : Nat) :
    pred w nodes k i = w.skl.head ∨
      pred w nodes k i ∈ (before w nodes k).filter fun a => decide (i < (w.heap.mem a).height) := by
  have := lastOf_mem w.skl.head ((before w nodes k).filter fun a => decide (i < (w.heap.mem a).height))
  simpa [pred] using this

theorem Rep.searchLoop {w : World K V} {nodes : List Addr} (r : Rep w nodes) (k : K) :
    ∀ (n : Nat) (x : Addr) (ctx : Nat → Option Addr), n ≤ maxHeight →
      (x = w.skl.head ∨ (x ∈ before w nodes k ∧ n ≤ (w.heap.mem x).height)) →
      ∃ ctx', Skl.searchLoop w.heap.mem w.skl.tail k (w.heap.brk + 1) n x ctx =
          .ret (if n = 0 then x else pred w nodes k 0, ctx') ∧
        ∀ j, ctx' j = if j < n then some (pred w nodes k j) else ctx j
  | 0, x, ctx, _, _ => ⟨ctx, by simp [Skl.searchLoop], by simp⟩
  | n + 1, x, ctx, hn, hx => by
    have hw := r.walk k (i := n) (x := x) (by omega) (by
      rcases hx with h | h
      · exact .inl h
      · right; simp only [List.mem_filter, decide_eq_true_eq]; exact ⟨h.1, by omega⟩)
    obtain ⟨ctx', h1, h2⟩ := r.searchLoop k n (pred w nodes k n)
      (fun j => if j = n then some (pred w nodes k n) else ctx j) (by omega) (by
        rcases pred_mem w nodes k n with h | h
        · exact .inl h
        · right
          simp only [List.mem_filter, decide_eq_true_eq] at h
          exact ⟨h.1, by omega⟩)
    refine ⟨ctx', ?_, ?_⟩
    · simp only [Skl.searchLoop, hw, Outcome.bind_ret, h1]
      cases n <;> simp
    · intro j
      rw [h2]
      by_cases h : j < n
      · simp [h, Nat.lt_succ_of_lt h]
      · by_cases h' : j = n
        · subst h'; simp
        · simp [h, h', show ¬ j < n + 1 by omega]

theorem lt_of_not_lt {a k : K} (h : GoOrdered.lt a k = false) : a = k ∨ GoOrdered.lt k a = true := by
  rcases LawfulOrdered.total a k with h' | h' | h'
  · rw [h] at h'; cases h'
  · exact .inl h'
  · exact .inr h'

/-- What a search finds: a node with the key, or proof that there is none; and `ctx`. -/
theorem Rep.search {w : World K V} {nodes : List Addr} (r : Rep w nodes) (k : K) :
    ∃ ctx, (∀ j < maxHeight, ctx j = some (pred w nodes k j)) ∧
      ((∃ x S, nodes = before w nodes k ++ x :: S ∧ (w.heap.mem x).key = k ∧
          Skl.search w k = .ret (some x, ctx)) ∨
        ((∀ a ∈ nodes, (w.heap.mem a).key ≠ k) ∧ Skl.search w k = .ret (none, ctx))) := by
  obtain ⟨ctx, h1, h2⟩ := r.searchLoop k maxHeight w.skl.head (fun _ => none) (Nat.le_refl _) (.inl rfl)
  rw [if_neg (by decide)] at h1
  refine ⟨ctx, fun j hj => by rw [h2]; simp [hj], ?_⟩
  have hall : ∀ l : List Addr, (∀ a ∈ l, a ∈ nodes) →
      l.filter (fun a => decide (0 < (w.heap.mem a).height)) = l := by
    intro l hl
    rw [List.filter_eq_self]
    intro a ha
    have := (r.height a (hl a ha)).1
    simp; omega
  have hc := r.chain_split k (i := 0) (by decide)
  rw [hall _ (fun a ha => by simp [before] at ha; exact ha.1),
      hall _ (fun a ha => by simp [after] at ha; exact ha.1)] at hc
  have hp : pred w nodes k 0 = lastOf w.skl.head (before w nodes k) := by
    unfold pred; rw [hall _ (fun a ha => by simp [before] at ha; exact ha.1)]
  have hn := hc.next_last
  rw [← hp] at hn
  have hs := r.split k
  cases hB : after w nodes k with
  | nil =>
    rw [hB] at hn hs
    have hn : (w.heap.mem (pred w nodes k 0)).next 0 = some w.skl.tail := hn
    right
    refine ⟨fun a ha hk => ?_, ?_⟩
    · rw [hs] at ha
      simp [before] at ha
      rw [hk, LawfulOrdered.irrefl] at ha
      exact absurd ha.2 (by simp)
    · simp [Skl.search, h1, hn]
  | cons b B =>
    rw [hB] at hn hs
    have hn : (w.heap.mem (pred w nodes k 0)).next 0 = some b := hn.1
    have hbm : b ∈ after w nodes k := by rw [hB]; simp
    have hbn : b ∈ nodes := by simp [after] at hbm; exact hbm.1
    have hbt := r.ne_tail b hbn
    have hbk : GoOrdered.lt (w.heap.mem b).key k = false := by simp [after] at hbm; exact hbm.2
    by_cases he : (w.heap.mem b).key = k
    · left
      refine ⟨b, B, hs, he, ?_⟩
      have he' : GoOrdered.eq (w.heap.mem b).key k = true := (LawfulOrdered.eq_iff _ _).2 he
      simp [Skl.search, h1, hn, hbt, he']
    · right
      refine ⟨fun a ha hk => ?_, ?_⟩
      · rw [hs] at ha
        simp only [List.mem_append, List.mem_cons] at ha
        rcases ha with ha | rfl | ha
        · simp [before] at ha
          rw [hk, LawfulOrdered.irrefl] at ha
          exact absurd ha.2 (by simp)
        · exact he hk
        · have hso := r.sorted
          rw [hs] at hso
          have := (List.pairwise_cons.1 (List.pairwise_append.1 hso).2.1).1 a ha
          rw [hk, hbk] at this; cases this
      · have he' : GoOrdered.eq (w.heap.mem b).key k = false := by
          cases hh : GoOrdered.eq (w.heap.mem b).key k with
          | false => rfl
          | true => exact absurd ((LawfulOrdered.eq_iff _ _).1 hh) he
        simp [Skl.search, h1, hn, he']

/-! ## Updates -/

theorem randHeightLoop_range : ∀ (n : Nat) (seed : BitVec 64), n < maxHeight →
    1 ≤ (randHeightLoop n seed).1 ∧ (randHeightLoop n seed).1 ≤ maxHeight
  | 0, seed, _ => by simp [randHeightLoop, maxHeight]
  | n + 1, seed, h => by
    unfold randHeightLoop
    simp only
    split
    · simp only [maxHeight] at *; omega
    · exact randHeightLoop_range n _ (by omega)

theorem randHeight_range (seed : BitVec 64) : 1 ≤ (randHeight seed).1 ∧ (randHeight seed).1 ≤ maxHeight :=
  randHeightLoop_range _ _ (by decide)

/-- The memory after linking `node` behind `c j` on all levels `j < n`. -/
def linked (m : Addr → Node K V) (node : Addr) (c : Nat → Addr) (n : Nat) : Addr → Node K V := fun a =>
  { m a with next := fun j =>
      if j < n then (if a = node then (m (c j)).next j else if a = c j then some node else (m a).next j)
      else (m a).next j }

omit [LawfulOrdered K] in
theorem linkLoop_spec {m : Addr → Node K V} {node : Addr} {ctx : Nat → Option Addr} {c : Nat → Addr} :
    ∀ n, (∀ j < n, ctx j = some (c j)) → (∀ j < n, c j ≠ node) →
      linkLoop node ctx m n = .ret (linked m node c n)
  | 0, _, _ => by
    simp only [linkLoop, Outcome.ret_inj]
    funext a; simp [linked]
  | n + 1, h1, h2 => by
    have ih := linkLoop_spec (m := m) n (fun j hj => h1 j (by omega)) (fun j hj => h2 j (by omega))
    have hc := h2 n (by omega)
    simp only [linkLoop, ih, Outcome.bind_ret, h1 n (by omega), Outcome.ret_inj]
    funext a
    unfold setNext linked
    by_cases ha : a = c n
    · subst ha
      simp only [hc, if_true, if_false, Node.mk.injEq, true_and, and_true]
      funext j
      by_cases hj : j = n
      · subst hj; simp [hc]
      · by_cases hj' : j < n
        · simp [hj, hj', hc, show j < n + 1 by omega]
        · simp [hj, hj', show ¬ j < n + 1 by omega]
    · by_cases ha' : a = node
      · subst ha'
        simp only [ha, if_true, if_false, Node.mk.injEq, true_and, and_true]
        funext j
        by_cases hj : j = n
        · subst hj; simp [hc]
        · by_cases hj' : j < n
          · simp [hj, hj', show j < n + 1 by omega]
          · simp [hj, hj', show ¬ j < n + 1 by omega]
      · simp only [ha, ha', if_false, Node.mk.injEq, true_and, and_true]
        funext j
        by_cases hj : j = n
        · subst hj; simp [ha]
        · by_cases hj' : j < n
          · simp [hj', show j < n + 1 by omega]
          · simp [hj', show ¬ j < n + 1 by omega]

/-- The memory after unlinking `x` behind `c j` on all levels `j < n`. -/
def unlinked (m : Addr → Node K V) (x : Addr) (c : Nat → Addr) (n : Nat) : Addr → Node K V := fun a =>
  { m a with next := fun j => if j < n ∧ a = c j then (m x).next j else (m a).next j }

omit [LawfulOrdered K] in
theorem unlinkLoop_spec {m : Addr → Node K V} {x : Addr} {ctx : Nat → Option Addr} {c : Nat → Addr} :
    ∀ n, (∀ j < n, ctx j = some (c j)) → unlinkLoop x ctx m n = .ret (unlinked m x c n)
  | 0, _ => by
    simp only [unlinkLoop, Outcome.ret_inj]
    funext a; simp [unlinked]
  | n + 1, h1 => by
    have ih := unlinkLoop_spec (m := m) (x := x) n (fun j hj => h1 j (by omega))
    simp only [unlinkLoop, ih, Outcome.bind_ret, h1 n (by omega), Outcome.ret_inj]
    funext a
    unfold setNext unlinked
    by_cases ha : a = c n
    · subst ha
      simp only [if_true, Node.mk.injEq, true_and, and_true]
      funext j
      by_cases hj : j = n
      · subst hj; simp
      · by_cases hj' : j < n
        · simp [hj, hj', show j < n + 1 by omega]
        · simp [hj, hj', show ¬ j < n + 1 by omega]
    · simp only [ha, if_false, Node.mk.injEq, true_and, and_true]
      funext j
      by_cases hj : j = n
      · subst hj; simp [ha]
      · by_cases hj' : j < n
        · simp [hj', show j < n + 1 by omega]
        · simp [hj', show ¬ j < n + 1 by omega]

theorem Rep.pred_lt {w : World K V} {nodes : List Addr} (r : Rep w nodes) (k : K) (i : Nat) :
    pred w nodes k i < w.heap.brk := by
  rcases pred_mem w nodes k i with h | h
  · rw [h]; exact r.head_lt
  · simp only [List.mem_filter, before] at h; exact r.lt_brk _ h.1.1

theorem Rep.pred_ne_tail {w : World K V} {nodes : List Addr} (r : Rep w nodes) (k : K) (i : Nat) :
    pred w nodes k i ≠ w.skl.tail := by
  rcases pred_mem w nodes k i with h | h
  · rw [h]; exact r.head_ne
  · simp only [List.mem_filter, before] at h; exact r.ne_tail _ h.1.1

theorem Rep.head_nodup {w : World K V} {nodes : List Addr} (r : Rep w nodes) :
    (w.skl.head :: nodes).Nodup :=
  List.nodup_cons.2 ⟨fun h => r.ne_head _ h rfl, r.nodup⟩

/-- What an update leaves alone: keys and values of the nodes that existed, and the sentinels. -/
structure Frame (w w' : World K V) : Prop where
  head : w'.skl.head = w.skl.head
  tail : w'.skl.tail = w.skl.tail
  brk : w.heap.brk ≤ w'.heap.brk
  key : ∀ a < w.heap.brk, (w'.heap.mem a).key = (w.heap.mem a).key

theorem Rep.insertWith_new {w : World K V} {nodes : List Addr} (r : Rep w nodes) (k : K) (v : V)
    {rh : Nat × BitVec 64} (hr : 1 ≤ rh.1 ∧ rh.1 ≤ maxHeight)
    (hk : ∀ a ∈ nodes, (w.heap.mem a).key ≠ k) :
    ∃ w', Skl.insertWith rh w k v = .ret w' ∧ Frame w w' ∧
      Rep w' (before w nodes k ++ w.heap.brk :: after w nodes k) ∧
      (w'.heap.mem w.heap.brk).key = k ∧ (w'.heap.mem w.heap.brk).value = v ∧
      ∀ a < w.heap.brk, (w'.heap.mem a).value = (w.heap.mem a).value := by
  obtain ⟨ctx, hctx, h | ⟨_, hs⟩⟩ := r.search k
  · obtain ⟨x, S, hn, hx, _⟩ := h
    exact absurd hx (hk x (by rw [hn]; simp))
  obtain ⟨level, seed⟩ := rh
  simp only at hr
  unfold Skl.insertWith
  rw [hs]
  simp only [Outcome.bind_ret]
  generalize hm0 : (fun b => if b = w.heap.brk then
      ({ key := k, value := v, next := fun _ => none, height := level } : Node K V)
      else w.heap.mem b) = m0
  have hm0n : m0 w.heap.brk = { key := k, value := v, next := fun _ => none, height := level } := by
    rw [← hm0]; simp
  have hm0o : ∀ a, a ≠ w.heap.brk → m0 a = w.heap.mem a := by
    intro a ha; rw [← hm0]; simp [ha]
  have hpl := r.pred_lt k
  have hl := linkLoop_spec (m := m0) (node := w.heap.brk) (ctx := ctx) (c := pred w nodes k) level
    (fun j hj => hctx j (by omega)) (fun j _ => by have := hpl j; omega)
  simp only [hl, Outcome.bind_ret]
  have hold : ∀ a < w.heap.brk, m0 a = w.heap.mem a := fun a ha => hm0o a (by omega)
  have hlt : ∀ a ∈ nodes, a < w.heap.brk := r.lt_brk
  have hsplit := r.split k
  have hbm : ∀ a ∈ before w nodes k, a ∈ nodes := fun a ha => by simp [before] at ha; exact ha.1
  have ham : ∀ a ∈ after w nodes k, a ∈ nodes := fun a ha => by simp [after] at ha; exact ha.1
  have hmem : ∀ a, a ∈ before w nodes k ++ w.heap.brk :: after w nodes k ↔ a = w.heap.brk ∨ a ∈ nodes := by
    intro a
    constructor
    · simp only [List.mem_append, List.mem_cons]
      rintro (h | h | h)
      · exact .inr (hbm a h)
      · exact .inl h
      · exact .inr (ham a h)
    · rintro (h | h)
      · simp [h]
      · rw [hsplit] at h; simp only [List.mem_append, List.mem_cons] at h ⊢; tauto
  have hht : ∀ a < w.heap.brk, (linked m0 w.heap.brk (pred w nodes k) level a).height = (w.heap.mem a).height := by
    intro a ha; simp [linked, hold a ha]
  refine ⟨_, rfl, ⟨rfl, rfl, by simp, ?_⟩, ⟨?_, ?_, ?_, ?_, ?_, ?_, ?_, ?_, ?_, ?_, ?_⟩, ?_, ?_, ?_⟩
  · intro a ha; simp [linked, hold a ha]
  · have := r.head_lt; simp; omega
  · have := r.tail_lt; simp; omega
  · exact r.head_ne
  · intro a ha
    rcases (hmem a).1 ha with h | h
    · simp [h]
    · have := hlt a h; simp; omega
  · intro a ha
    rcases (hmem a).1 ha with h | h
    · have := r.head_lt; simp [h]; omega
    · exact r.ne_head a h
  · intro a ha
    rcases (hmem a).1 ha with h | h
    · have := r.tail_lt; simp [h]; omega
    · exact r.ne_tail a h
  · have hso := r.sorted
    rw [hsplit, List.pairwise_append] at hso
    rw [List.pairwise_append, List.pairwise_cons]
    have hkey : ∀ a ∈ nodes, (linked m0 w.heap.brk (pred w nodes k) level a).key = (w.heap.mem a).key := by
      intro a ha; simp [linked, hold a (hlt a ha)]
    have hkn : (linked m0 w.heap.brk (pred w nodes k) level w.heap.brk).key = k := by simp [linked, hm0n]
    refine ⟨?_, ⟨?_, ?_⟩, ?_⟩
    · refine hso.1.imp_of_mem ?_
      intro a b ha hb h
      simp only [hkey a (hbm a ha), hkey b (hbm b hb)]; exact h
    · intro b hb
      simp only [hkn, hkey b (ham b hb)]
      have : GoOrdered.lt (w.heap.mem b).key k = false := by simp [after] at hb; exact hb.2
      rcases lt_of_not_lt this with h | h
      · exact absurd h (hk b (ham b hb))
      · exact h
    · refine hso.2.1.imp_of_mem ?_
      intro a b ha hb h
      simp only [hkey a (ham a ha), hkey b (ham b hb)]; exact h
    · intro a ha b hb
      rcases List.mem_cons.1 hb with rfl | hb
      · simp only [hkn, hkey a (hbm a ha)]
        simp [before] at ha; exact ha.2
      · simp only [hkey a (hbm a ha), hkey b (ham b hb)]
        exact hso.2.2 a ha b hb
  · intro a ha
    rcases (hmem a).1 ha with h | h
    · subst h; simp [linked, hm0n]; exact hr
    · simp only; rw [hht a (hlt a h)]; exact r.height a h
  · intro i hi
    have hc := r.chain_split k hi
    have hfl : ∀ l : List Addr, (∀ a ∈ l, a ∈ nodes) →
        l.filter (fun a => decide (i < (linked m0 w.heap.brk (pred w nodes k) level a).height)) =
        l.filter (fun a => decide (i < (w.heap.mem a).height)) := by
      intro l hl
      refine List.filter_congr (fun a ha => ?_)
      rw [hht a (hlt a (hl a ha))]
    simp only
    rw [List.filter_append, List.filter_cons, hfl _ hbm, hfl _ ham]
    have hnd : (w.skl.head :: (((before w nodes k).filter fun a => decide (i < (w.heap.mem a).height)) ++
       ((after w nodes k).filter fun a => decide (i < (w.heap.mem a).height)))).Nodup := by
      rw [← List.filter_append, ← hsplit]
      exact r.head_nodup.sublist (List.Sublist.cons_cons _ List.filter_sublist)
    have hnn : w.heap.brk ∉ (w.skl.head :: (((before w nodes k).filter fun a => decide (i < (w.heap.mem a).height)) ++
       ((after w nodes k).filter fun a => decide (i < (w.heap.mem a).height)))) := by
      rw [← List.filter_append, ← hsplit]
      intro h
      rcases List.mem_cons.1 h with h | h
      · have := r.head_lt; omega
      · have := hlt _ (List.mem_filter.1 h).1; omega
    have hhn : (linked m0 w.heap.brk (pred w nodes k) level w.heap.brk).height = level := by
      simp [linked, hm0n]
    rw [hhn]
    by_cases hil : i < level
    · simp only [hil, decide_true, if_true]
      refine Chain.insert hnd hnn ?_ ?_ ?_ hc
      · show _ = (w.heap.mem (pred w nodes k i)).next i
        simp [linked, hil, hold _ (hpl i)]
      · show (linked m0 w.heap.brk (pred w nodes k) level (pred w nodes k i)).next i = _
        have hne : pred w nodes k i ≠ w.heap.brk := by have := hpl i; omega
        simp only [linked, hil, if_true, if_neg hne]
      · intro b hb1 hb2
        have hb2 : b ≠ pred w nodes k i := hb2
        simp [linked, hb1, hb2, hm0o b hb1]
    · simp only [hil, decide_false, Bool.false_eq_true, if_false]
      refine Chain.congr ?_ ?_ hc
      · simp [linked, hil, hm0o _ (by have := r.head_lt; omega : w.skl.head ≠ w.heap.brk)]
      · intro b hb
        rw [← List.filter_append, ← hsplit] at hb
        have := hlt _ (List.mem_filter.1 hb).1
        simp [linked, hil, hm0o b (by omega)]
  · simp only
    have h1 := r.pred_ne_tail k 0
    have h2 := r.tail_lt
    have h3 := r.tail_next
    have h4 : w.skl.tail ≠ pred w nodes k 0 := fun h => h1 h.symm
    simp [linked, h4, hm0o _ (by omega : w.skl.tail ≠ w.heap.brk), h3]
    intro _ h; omega
  · simp only
    rw [r.len]
    have : nodes.length = (before w nodes k ++ after w nodes k).length := by rw [← hsplit]
    simp at this ⊢; omega
  · simp [linked, hm0n]
  · simp [linked, hm0n]
  · intro a ha; simp [linked, hold a ha]

theorem Rep.insert_new {w : World K V} {nodes : List Addr} (r : Rep w nodes) (k : K) (v : V)
    (hk : ∀ a ∈ nodes, (w.heap.mem a).key ≠ k) :
    ∃ w', Skl.insert w k v = .ret w' ∧ Frame w w' ∧
      Rep w' (before w nodes k ++ w.heap.brk :: after w nodes k) ∧
      (w'.heap.mem w.heap.brk).key = k ∧ (w'.heap.mem w.heap.brk).value = v ∧
      ∀ a < w.heap.brk, (w'.heap.mem a).value = (w.heap.mem a).value :=
  r.insertWith_new k v (randHeight_range _) hk

theorem Rep.key_inj {w : World K V} {nodes : List Addr} (r : Rep w nodes) {a b : Addr}
    (ha : a ∈ nodes) (hb : b ∈ nodes) (h : (w.heap.mem a).key = (w.heap.mem b).key) : a = b := by
  obtain ⟨i, hi, rfl⟩ := List.mem_iff_getElem.1 ha
  obtain ⟨j, hj, rfl⟩ := List.mem_iff_getElem.1 hb
  have hp := List.pairwise_iff_getElem.1 r.sorted
  rcases Nat.lt_trichotomy i j with hij | hij | hij
  · have := hp i j hi hj hij
    rw [h, LawfulOrdered.irrefl] at this; cases this
  · subst hij; rfl
  · have := hp j i hj hi hij
    rw [h, LawfulOrdered.irrefl] at this; cases this

theorem Rep.insertWith_old {w : World K V} {nodes : List Addr} (r : Rep w nodes) (rh : Nat × BitVec 64)
    (k : K) (v : V) {x : Addr} (hx : x ∈ nodes) (hk : (w.heap.mem x).key = k) :
    ∃ w', Skl.insertWith rh w k v = .ret w' ∧ Frame w w' ∧ Rep w' nodes ∧ w'.heap.brk = w.heap.brk ∧
      (w'.heap.mem x).value = v ∧ ∀ a, a ≠ x → (w'.heap.mem a).value = (w.heap.mem a).value := by
  obtain ⟨ctx, hctx, ⟨y, S, hn, hy, hs⟩ | ⟨h, _⟩⟩ := r.search k
  · have hxy : x = y := by
      have hy' : y ∈ nodes := by rw [hn]; simp
      exact r.key_inj hx hy' (hk.trans hy.symm)
    subst hxy
    unfold Skl.insertWith
    rw [hs]
    have hkk : ∀ a, (setValue w.heap.mem x v a).key = (w.heap.mem a).key := by
      intro a; by_cases h : a = x <;> simp [setValue, h]
    have hh : ∀ a, (setValue w.heap.mem x v a).height = (w.heap.mem a).height := by
      intro a; by_cases h : a = x <;> simp [setValue, h]
    have hnx : ∀ a, (setValue w.heap.mem x v a).next = (w.heap.mem a).next := by
      intro a; by_cases h : a = x <;> simp [setValue, h]
    refine ⟨_, rfl, ⟨rfl, rfl, Nat.le_refl _, fun a _ => hkk a⟩,
      ⟨r.head_lt, r.tail_lt, r.head_ne, r.lt_brk, r.ne_head, r.ne_tail, ?_, ?_, ?_, ?_, r.len⟩, rfl, ?_, ?_⟩
    · simp only [hkk]; exact r.sorted
    · simp only [hh]; exact r.height
    · simp only [hh, hnx]; exact r.chain
    · simp only [hnx]; exact r.tail_next
    · simp [setValue]
    · intro a ha; simp [setValue, ha]
  · exact absurd hk (h x hx)

theorem Rep.insert_old {w : World K V} {nodes : List Addr} (r : Rep w nodes) (k : K) (v : V)
    {x : Addr} (hx : x ∈ nodes) (hk : (w.heap.mem x).key = k) :
    ∃ w', Skl.insert w k v = .ret w' ∧ Frame w w' ∧ Rep w' nodes ∧ w'.heap.brk = w.heap.brk ∧
      (w'.heap.mem x).value = v ∧ ∀ a, a ≠ x → (w'.heap.mem a).value = (w.heap.mem a).value :=
  r.insertWith_old (randHeight w.skl.seed) k v hx hk

theorem Rep.delete_none {w : World K V} {nodes : List Addr} (r : Rep w nodes) (k : K)
    (hk : ∀ a ∈ nodes, (w.heap.mem a).key ≠ k) : Skl.delete w k = .ret (w, false) := by
  obtain ⟨ctx, _, h | ⟨_, hs⟩⟩ := r.search k
  · obtain ⟨x, S, hn, hx, _⟩ := h
    exact absurd hx (hk x (by rw [hn]; simp))
  · simp [Skl.delete, hs]

theorem Rep.delete_some {w : World K V} {nodes : List Addr} (r : Rep w nodes) (k : K)
    {x : Addr} (hx : x ∈ nodes) (hk : (w.heap.mem x).key = k) :
    ∃ w', Skl.delete w k = .ret (w', true) ∧ Frame w w' ∧ w'.heap.brk = w.heap.brk ∧
      (∃ A B, nodes = A ++ x :: B ∧ Rep w' (A ++ B)) ∧
      ∀ a, (w'.heap.mem a).key = (w.heap.mem a).key ∧ (w'.heap.mem a).value = (w.heap.mem a).value := by
  obtain ⟨ctx, hctx, ⟨y, S, hn, hy, hs⟩ | ⟨h, _⟩⟩ := r.search k
  swap
  · exact absurd hk (h x hx)
  have hy' : y ∈ nodes := by rw [hn]; simp
  have hxy : x = y := by
    exact r.key_inj hx hy' (hk.trans hy.symm)
  subst hxy
  have hhx := r.height x hx
  have hu := unlinkLoop_spec (m := w.heap.mem) (x := x) (ctx := ctx) (c := pred w nodes k)
    (w.heap.mem x).height (fun j hj => hctx j (by omega))
  unfold Skl.delete
  rw [hs]
  simp only [Outcome.bind_ret, hu]
  have hsub : ∀ a, a ∈ before w nodes k ++ S → a ∈ nodes := by
    intro a ha; rw [hn]; simp at ha ⊢; tauto
  refine ⟨_, rfl, ⟨rfl, rfl, Nat.le_refl _, fun a _ => rfl⟩, rfl, ⟨_, S, hn,
    ⟨r.head_lt, r.tail_lt, r.head_ne, fun a ha => r.lt_brk a (hsub a ha),
     fun a ha => r.ne_head a (hsub a ha), fun a ha => r.ne_tail a (hsub a ha), ?_, ?_, ?_, ?_, ?_⟩⟩,
    fun a => ⟨rfl, rfl⟩⟩
  · have hso := r.sorted
    rw [hn] at hso
    exact hso.sublist (by simp)
  · intro a ha; exact r.height a (hsub a ha)
  · intro i hi
    have hc := r.chain i hi
    rw [hn, List.filter_append, List.filter_cons] at hc
    have hnd := r.head_nodup
    rw [hn] at hnd
    have hnd : (w.skl.head :: ((before w nodes k ++ x :: S).filter fun a => decide (i < (w.heap.mem a).height))).Nodup :=
      hnd.sublist (List.Sublist.cons_cons _ List.filter_sublist)
    rw [List.filter_append, List.filter_cons] at hnd
    show Chain _ _ _ ((before w nodes k ++ S).filter fun a => decide (i < (w.heap.mem a).height))
    rw [List.filter_append]
    by_cases hi' : i < (w.heap.mem x).height
    · simp only [hi', decide_true, if_true] at hc hnd
      refine Chain.remove hnd ?_ ?_ hc
      · show (unlinked w.heap.mem x (pred w nodes k) (w.heap.mem x).height (pred w nodes k i)).next i = _
        simp [unlinked, hi']
      · intro b hb
        have hb : b ≠ pred w nodes k i := hb
        simp [unlinked, hb]
    · simp only [hi', decide_false, Bool.false_eq_true, if_false] at hc
      refine Chain.congr ?_ ?_ hc
      · simp [unlinked, hi']
      · intro b _; simp [unlinked, hi']
  · simp only
    have h1 := r.pred_ne_tail k 0
    have h4 : w.skl.tail ≠ pred w nodes k 0 := fun h => h1 h.symm
    simp [unlinked, h4, r.tail_next]
  · simp only
    have h := congrArg List.length hn
    have h' := r.len
    simp at h ⊢; omega

variable [Inhabited K] [Inhabited V]

theorem Rep.newIn (h : Heap K V) (seed : BitVec 64) : Rep (Skl.newIn h seed) [] := by
  refine ⟨?_, ?_, ?_, ?_, ?_, ?_, ?_, ?_, ?_, ?_, ?_⟩ <;> simp [Skl.newIn]
  intro i hi
  simp [Chain, hi]

/-! ## Iteration -/

/-- The entries the nodes stand for. -/
def kvs (w : World K V) (nodes : List Addr) : List (K × V) :=
  nodes.map fun a => ((w.heap.mem a).key, (w.heap.mem a).value)

theorem Rep.chain0 {w : World K V} {nodes : List Addr} (r : Rep w nodes) :
    Chain (fun a => (w.heap.mem a).next 0) w.skl.tail w.skl.head nodes := by
  have hc := r.chain 0 (by decide)
  have : nodes.filter (fun a => decide (0 < (w.heap.mem a).height)) = nodes := by
    rw [List.filter_eq_self]
    intro a ha
    have := (r.height a ha).1
    simp; omega
  rwa [this] at hc

omit [LawfulOrdered K] in
/-- Draining from position `a` (a node, or the head through a fresh iterator) yields `l`. -/
theorem drain_spec {w : World K V} : ∀ {l : List Addr} {a : Addr} {it : Iter} {fuel : Nat},
    Chain (fun a => (w.heap.mem a).next 0) w.skl.tail a l → (∀ b ∈ l, b ≠ w.skl.tail) →
    (it.node = some a ∨ (it.node = none ∧ a = w.skl.head)) → l.length < fuel →
    Skl.drain w fuel it = .ret (kvs w l)
  | [], a, it, fuel + 1, hc, _, hit, _ => by
    have hc : (w.heap.mem a).next 0 = some w.skl.tail := hc
    have hn : Skl.next w it = .ret (⟨some w.skl.tail⟩, none) := by
      rcases hit with h | ⟨h, rfl⟩ <;> simp [Skl.next, h, hc]
    simp [Skl.drain, hn, kvs]
  | b :: l, a, it, fuel + 1, hc, ht, hit, hf => by
    have h1 : (w.heap.mem a).next 0 = some b := hc.1
    have hb := ht b (by simp)
    have hn : Skl.next w it = .ret (⟨some b⟩, some ((w.heap.mem b).key, (w.heap.mem b).value)) := by
      rcases hit with h | ⟨h, rfl⟩ <;> simp [Skl.next, h, h1, hb]
    have ih := drain_spec (w := w) (l := l) (a := b) (it := ⟨some b⟩) (fuel := fuel) hc.2
      (fun c hc => ht c (by simp [hc])) (.inl rfl) (by simp at hf; omega)
    simp [Skl.drain, hn, ih, kvs]

theorem Rep.entries {w : World K V} {nodes : List Addr} (r : Rep w nodes) :
    Skl.entries w = .ret (kvs w nodes) :=
  drain_spec r.chain0 r.ne_tail (.inr ⟨rfl, rfl⟩) (by have := r.length_le; omega)

end
end Verif.Skl
