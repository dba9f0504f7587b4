import Verif.Skl.Refine
import Verif.SklAny.Spec
/-!
# The skip list with any comparison

The representation invariant without the order of the keys: nothing is assumed about `<` and `==`. A search leaves
a position behind on every level, and these positions fit together, because the search compares the same two keys
in the same way on every level.
-/
set_option linter.unusedSectionVars false
namespace Verif.Skl
open Verif.Go Verif.MapSpec Verif.SklAny

section
variable {K V : Type} [GoOrdered K]

/-- `Rep` without `sorted`. -/
structure Rep0 (w : World K V) (nodes : List Addr) : Prop where
  head_lt : w.skl.head < w.heap.brk
  tail_lt : w.skl.tail < w.heap.brk
  head_ne : w.skl.head ≠ w.skl.tail
  lt_brk : ∀ a ∈ nodes, a < w.heap.brk
  ne_head : ∀ a ∈ nodes, a ≠ w.skl.head
  ne_tail : ∀ a ∈ nodes, a ≠ w.skl.tail
  nodup : nodes.Nodup
  height : ∀ a ∈ nodes, 1 ≤ (w.heap.mem a).height ∧ (w.heap.mem a).height ≤ maxHeight
  chain : ∀ i < maxHeight, Chain (fun a => (w.heap.mem a).next i) w.skl.tail w.skl.head
    (nodes.filter fun a => decide (i < (w.heap.mem a).height))
  tail_next : (w.heap.mem w.skl.tail).next 0 = none
  len : w.skl.len = nodes.length

/-- Level `i` of a list of nodes. -/
def lvl (w : World K V) (i : Nat) (l : List Addr) : List Addr := l.filter fun a => decide (i < (w.heap.mem a).height)

theorem lvl_append (w : World K V) (i : Nat) (l l' : List Addr) : lvl w i (l ++ l') = lvl w i l ++ lvl w i l' :=
  List.filter_append ..

theorem walk_any {m : Addr → Node K V} {tl : Addr} {i : Nat} {k : K} :
    ∀ {A : List Addr} {x : Addr} {B : List Addr} {fuel : Nat},
      Chain (fun a => (m a).next i) tl x (A ++ B) →
      (∀ a ∈ A, a ≠ tl ∧ GoOrdered.lt (m a).key k = true) →
      (∀ b ∈ B.head?, GoOrdered.lt (m b).key k = false) → A.length < fuel →
      walk m tl i k fuel x = .ret (lastOf x A)
  | [], x, [], fuel + 1, h, _, _, _ => by
    have h : (m x).next i = some tl := h
    simp [walk, h]
  | [], x, b :: B, fuel + 1, h, _, hB, _ => by
    have h : (m x).next i = some b := h.1
    simp [walk, h, hB b (by simp)]
  | a :: A, x, B, fuel + 1, h, hA, hB, hf => by
    have h1 : (m x).next i = some a := h.1
    have ha := hA a (by simp)
    have ih := walk_any (A := A) (x := a) (B := B) (fuel := fuel) h.2
      (fun b hb => hA b (by simp [hb])) hB (by simp at hf; omega)
    simp [walk, h1, ha.1, ha.2, ih]

/-- Where a walk over the elements with `p` as long as `q` ends. -/
theorem walk_split (p q : Addr → Bool) : ∀ M : List Addr, ∃ U T R, M = U ++ T ++ R ∧
    (∀ x ∈ U.getLast?, p x = true) ∧ (∀ a ∈ U, p a = true → q a = true) ∧ (∀ a ∈ T, p a = false) ∧
    (∀ b ∈ R.head?, p b = true ∧ q b = false)
  | [] => ⟨[], [], [], by simp⟩
  | a :: M => by
    obtain ⟨U, T, R, h1, h2, h3, h4, h5⟩ := walk_split p q M
    cases hp : p a with
    | false =>
      cases U with
      | nil => exact ⟨[], a :: T, R, by simp [h1], by simp, by simp, by
          intro b hb
          rcases List.mem_cons.1 hb with rfl | hb
          · exact hp
          · exact h4 b hb, h5⟩
      | cons u U => exact ⟨a :: u :: U, T, R, by simp [h1], by simpa using h2, by
          intro b hb hpb
          rcases List.mem_cons.1 hb with rfl | hb
          · rw [hp] at hpb; cases hpb
          · exact h3 b hb hpb, h4, h5⟩
    | true =>
      cases hq : q a with
      | false => exact ⟨[], [], a :: M, by simp, by simp, by simp, by simp, by simp [hp, hq]⟩
      | true =>
        refine ⟨a :: U, T, R, by simp [h1], ?_, ?_, h4, h5⟩
        · cases U with
          | nil => simpa using hp
          | cons u U => simpa using h2
        · intro b hb hpb
          rcases List.mem_cons.1 hb with rfl | hb
          · exact hq
          · exact h3 b hb hpb

theorem lastOf_append (a : Addr) (P U : List Addr) : lastOf a (P ++ U) = lastOf (lastOf a P) U := by
  induction P generalizing a with
  | nil => rfl
  | cons p P ih => simp [ih]

/-- The last element of a list that ends in level `i` is the last one of that level. -/
theorem lastOf_lvl (w : World K V) (i : Nat) (a : Addr) (P : List Addr)
    (h : ∀ x ∈ P.getLast?, i < (w.heap.mem x).height) : lastOf a (lvl w i P) = lastOf a P := by
  rcases List.eq_nil_or_concat P with rfl | ⟨P, x, rfl⟩
  · rfl
  · rw [List.concat_eq_append] at *
    have hx : i < (w.heap.mem x).height := h x (by simp)
    rw [lvl_append, show lvl w i [x] = [x] by simp [lvl, hx], lastOf_append_cons, lastOf_append_cons]

theorem Rep0.length_le {w : World K V} {nodes : List Addr} (r : Rep0 w nodes) : nodes.length ≤ w.heap.brk := by
  have h1 : nodes.Subperm (List.range w.heap.brk) :=
    List.subperm_of_subset r.nodup (fun a ha => by simpa using r.lt_brk a ha)
  simpa using h1.length_le

theorem Rep0.searchLoop {w : World K V} {nodes : List Addr} (r : Rep0 w nodes) (k : K) :
    ∀ (n : Nat) (ctx : Nat → Option Addr) (P M Q : List Addr), n ≤ maxHeight → nodes = P ++ M ++ Q →
      (∀ x ∈ P.getLast?, n ≤ (w.heap.mem x).height ∧ GoOrdered.lt (w.heap.mem x).key k = true) → (∀ a ∈ M, (w.heap.mem a).height ≤ n) →
      (∀ b ∈ Q.head?, GoOrdered.lt (w.heap.mem b).key k = false ∧ n ≤ (w.heap.mem b).height) →
      ∃ ctx' U T, M = U ++ T ∧
        Skl.searchLoop w.heap.mem w.skl.tail k (w.heap.brk + 1) n (lastOf w.skl.head P) ctx =
          .ret (lastOf w.skl.head (P ++ U), ctx') ∧
        (∀ x ∈ (P ++ U).getLast?, GoOrdered.lt (w.heap.mem x).key k = true) ∧
        (∀ b ∈ (T ++ Q).head?, GoOrdered.lt (w.heap.mem b).key k = false) ∧
        ∀ j, ctx' j = if j < n then some (lastOf w.skl.head (lvl w j (P ++ U))) else ctx j
  | 0, ctx, P, M, Q, _, hn, hP, hM, hQ => by
    have : M = [] := by
      cases M with
      | nil => rfl
      | cons a M =>
        have h1 := hM a (by simp)
        have h2 := (r.height a (by rw [hn]; simp)).1
        omega
    subst this
    exact ⟨ctx, [], [], rfl, by simp [Skl.searchLoop], by simpa using fun x hx => (hP x hx).2,
      fun b hb => (hQ b hb).1, by simp⟩
  | n + 1, ctx, P, M, Q, hm, hn, hP, hM, hQ => by
    obtain ⟨U, T, R, h1, h2, h3, h4, h5⟩ := walk_split (fun a => decide (n < (w.heap.mem a).height))
      (fun a => GoOrdered.lt (w.heap.mem a).key k) M
    have hmem : ∀ a ∈ U, a ∈ nodes := fun a ha => by rw [hn, h1]; simp [ha]
    have hT : lvl w n T = [] := by
      rw [lvl, List.filter_eq_nil_iff]
      intro a ha
      simp [show decide (n < (w.heap.mem a).height) = false from h4 a ha]
    -- the walk on level `n`
    have hc : Chain (fun a => (w.heap.mem a).next n) w.skl.tail (lastOf w.skl.head P)
        (lvl w n U ++ lvl w n (R ++ Q)) := by
      have hc := r.chain n (by omega)
      have : nodes = P ++ (U ++ T ++ (R ++ Q)) := by rw [hn, h1]; simp
      rw [this] at hc
      change Chain _ _ _ (lvl w n _) at hc
      rw [lvl_append, lvl_append, lvl_append, hT, List.append_nil] at hc
      have := hc.next_last
      rwa [lastOf_lvl w n _ P (fun x hx => by have := (hP x hx).1; omega)] at this
    have hhead : ∀ b ∈ (lvl w n (R ++ Q)).head?, GoOrdered.lt (w.heap.mem b).key k = false := by
      intro b hb
      cases R with
      | cons c R =>
        have hc5 := h5 c (by simp)
        simp only [decide_eq_true_eq] at hc5
        rw [List.cons_append, lvl, List.filter_cons, if_pos (by simpa using hc5.1)] at hb
        simp only [List.head?_cons, Option.mem_def, Option.some.injEq] at hb
        rw [← hb]; exact hc5.2
      | nil =>
        cases Q with
        | nil => simp [lvl] at hb
        | cons c Q =>
          have hcQ := hQ c (by simp)
          rw [List.nil_append, lvl, List.filter_cons, if_pos (by simp; omega)] at hb
          simp only [List.head?_cons, Option.mem_def, Option.some.injEq] at hb
          rw [← hb]; exact hcQ.1
    have hlen : (lvl w n U).length < w.heap.brk + 1 := by
      have e1 := List.length_filter_le (fun a => decide (n < (w.heap.mem a).height)) U
      have e2 := r.length_le
      have e3 := congrArg List.length hn
      rw [h1] at e3
      simp only [List.length_append] at e3
      simp only [lvl]
      omega
    have hw := walk_any (m := w.heap.mem) (k := k) (fuel := w.heap.brk + 1) hc (fun a ha => by
      have ha' := List.mem_filter.1 ha
      exact ⟨r.ne_tail a (hmem a ha'.1), h3 a ha'.1 ha'.2⟩) hhead hlen
    have hlast : lastOf (lastOf w.skl.head P) (lvl w n U) = lastOf w.skl.head (P ++ U) := by
      rw [lastOf_append, lastOf_lvl]
      intro x hx
      have := h2 x hx
      simpa using this
    rw [hlast] at hw
    -- the levels below
    have hPU : ∀ x ∈ (P ++ U).getLast?, n < (w.heap.mem x).height ∧ GoOrdered.lt (w.heap.mem x).key k = true := by
      intro x hx
      rcases List.eq_nil_or_concat U with rfl | ⟨U', u, rfl⟩
      · rw [List.append_nil] at hx
        have := hP x hx; exact ⟨by omega, this.2⟩
      · rw [List.concat_eq_append] at *
        have h2' := h2 u (by simp)
        have h3' := h3 u (by simp) h2'
        rw [← List.append_assoc] at hx
        simp at hx h2'
        rw [← hx]; exact ⟨h2', h3'⟩
    obtain ⟨ctx', U', T', g1, g2, g0, g3, g4⟩ := r.searchLoop k n
      (fun j => if j = n then some (lastOf w.skl.head (P ++ U)) else ctx j) (P ++ U) T (R ++ Q) (by omega)
      (by rw [hn, h1]; simp) (fun x hx => by have := hPU x hx; exact ⟨by omega, this.2⟩)
      (fun a ha => by have := h4 a ha; simp at this; exact this)
      (by
        intro b hb
        cases R with
        | cons c R =>
          have hc5 := h5 c (by simp)
          simp only [decide_eq_true_eq] at hc5
          simp only [List.cons_append, List.head?_cons, Option.mem_def, Option.some.injEq] at hb
          rw [← hb]; exact ⟨hc5.2, by omega⟩
        | nil => rw [List.nil_append] at hb; have := hQ b hb; exact ⟨this.1, by omega⟩)
    refine ⟨ctx', U ++ U', T' ++ R, by rw [h1, g1]; simp, ?_, ?_, ?_, ?_⟩
    · simp only [Skl.searchLoop, hw, Outcome.bind_ret, g2, List.append_assoc]
    · rwa [← List.append_assoc]
    · intro b hb
      exact g3 b (by rwa [List.append_assoc] at hb)
    · intro j
      rw [g4 j]
      by_cases hj : j < n
      · simp [hj, show j < n + 1 by omega]
      · by_cases hj' : j = n
        · subst hj'
          have hU' : lvl w j U' = [] := by
            rw [lvl, List.filter_eq_nil_iff]
            intro a ha
            have := h4 a (by rw [g1]; simp [ha])
            simp only [decide_eq_false_iff_not] at this
            simpa using this
          have : lastOf w.skl.head (lvl w j (P ++ (U ++ U'))) = lastOf w.skl.head (P ++ U) := by
            rw [← List.append_assoc, lvl_append, hU', List.append_nil, lastOf_lvl _ _ _ _ (fun x hx => (hPU x hx).1)]
          simp [this]
        · simp [hj, hj', show ¬ j < n + 1 by omega]

/-- What `ctx[i]` is after a search that ended behind `A`. -/
def predA (w : World K V) (A : List Addr) (i : Nat) : Addr := lastOf w.skl.head (lvl w i A)

/-- What a search does: it stops between two nodes, at the first of which after the stop the key is not below;
it finds the node there if the key is equal. -/
theorem Rep0.search {w : World K V} {nodes : List Addr} (r : Rep0 w nodes) (k : K) :
    ∃ ctx A B, nodes = A ++ B ∧ (∀ j < maxHeight, ctx j = some (predA w A j)) ∧
      (∀ a ∈ A.getLast?, GoOrdered.lt (w.heap.mem a).key k = true) ∧
      (∀ b ∈ B.head?, GoOrdered.lt (w.heap.mem b).key k = false) ∧
      ((∃ x S, B = x :: S ∧ GoOrdered.eq (w.heap.mem x).key k = true ∧ Skl.search w k = .ret (some x, ctx)) ∨
        ((∀ b ∈ B.head?, GoOrdered.eq (w.heap.mem b).key k = false) ∧ Skl.search w k = .ret (none, ctx))) := by
  obtain ⟨ctx, A, B, h1, h2, h0, h3, h4⟩ := r.searchLoop k maxHeight (fun _ => none) [] nodes [] (Nat.le_refl _)
    (by simp) (by simp) (fun a ha => (r.height a ha).2) (by simp)
  simp only [List.nil_append, List.append_nil, lastOf_nil] at h2 h0 h3 h4
  refine ⟨ctx, A, B, h1, fun j hj => by rw [h4]; simp [hj, predA], h0, h3, ?_⟩
  have hall : lvl w 0 nodes = nodes := by
    rw [lvl, List.filter_eq_self]
    intro a ha
    have := (r.height a ha).1
    simp; omega
  have hc := r.chain 0 (by decide)
  change Chain _ _ _ (lvl w 0 nodes) at hc
  rw [hall, h1] at hc
  have hnx := hc.next_last
  cases B with
  | nil =>
    have hnx : (w.heap.mem (lastOf w.skl.head A)).next 0 = some w.skl.tail := hnx
    exact Or.inr ⟨by simp, by simp [Skl.search, h2, hnx]⟩
  | cons b B =>
    have hnx : (w.heap.mem (lastOf w.skl.head A)).next 0 = some b := hnx.1
    have hbt := r.ne_tail b (by rw [h1]; simp)
    cases he : GoOrdered.eq (w.heap.mem b).key k with
    | true => exact Or.inl ⟨b, B, rfl, he, by simp [Skl.search, h2, hnx, hbt, he]⟩
    | false => exact Or.inr ⟨by simp [he], by simp [Skl.search, h2, hnx, he]⟩

theorem predA_mem (w : World K V) (A : List Addr) (i : Nat) :
    predA w A i = w.skl.head ∨ predA w A i ∈ A := by
  have := lastOf_mem w.skl.head (lvl w i A)
  rcases List.mem_cons.1 this with h | h
  · exact Or.inl h
  · exact Or.inr (List.mem_filter.1 h).1

theorem Rep0.head_nodup {w : World K V} {nodes : List Addr} (r : Rep0 w nodes) : (w.skl.head :: nodes).Nodup :=
  List.nodup_cons.2 ⟨fun h => r.ne_head _ h rfl, r.nodup⟩

theorem Rep0.insert {w : World K V} {nodes A B : List Addr} (r : Rep0 w nodes) (k : K) (v : V)
    {rh : Nat × BitVec 64} (hr : 1 ≤ rh.1 ∧ rh.1 ≤ maxHeight) {ctx : Nat → Option Addr} (hn : nodes = A ++ B)
    (hctx : ∀ j < maxHeight, ctx j = some (predA w A j)) (hs : Skl.search w k = .ret (none, ctx)) :
    ∃ w', Skl.insertWith rh w k v = .ret w' ∧ Frame w w' ∧ Rep0 w' (A ++ w.heap.brk :: B) ∧
      (w'.heap.mem w.heap.brk).key = k ∧ (w'.heap.mem w.heap.brk).value = v ∧
      ∀ a < w.heap.brk, (w'.heap.mem a).value = (w.heap.mem a).value := by
  obtain ⟨level, seed⟩ := rh
  simp only at hr
  unfold Skl.insertWith
  rw [hs]
  simp only [Outcome.bind_ret]
  generalize hm0 : (fun b => if b = w.heap.brk then
      ({ key := k, value := v, next := fun _ => none, height := level } : Node K V)
      else w.heap.mem b) = m0
  have hm0n : m0 w.heap.brk = { key := k, value := v, next := fun _ => none, height := level } := by
    rw [← hm0]; simp
  have hm0o : ∀ a, a ≠ w.heap.brk → m0 a = w.heap.mem a := by
    intro a ha; rw [← hm0]; simp [ha]
  have hA : ∀ a ∈ A, a ∈ nodes := fun a ha => by rw [hn]; simp [ha]
  have hB : ∀ a ∈ B, a ∈ nodes := fun a ha => by rw [hn]; simp [ha]
  have hpl : ∀ i, predA w A i < w.heap.brk := by
    intro i
    rcases predA_mem w A i with h | h
    · rw [h]; exact r.head_lt
    · exact r.lt_brk _ (hA _ h)
  have hpt : ∀ i, predA w A i ≠ w.skl.tail := by
    intro i
    rcases predA_mem w A i with h | h
    · rw [h]; exact r.head_ne
    · exact r.ne_tail _ (hA _ h)
  have hl := linkLoop_spec (m := m0) (node := w.heap.brk) (ctx := ctx) (c := predA w A) level
    (fun j hj => hctx j (by omega)) (fun j _ => by have := hpl j; omega)
  simp only [hl, Outcome.bind_ret]
  have hold : ∀ a < w.heap.brk, m0 a = w.heap.mem a := fun a ha => hm0o a (by omega)
  have hlt : ∀ a ∈ nodes, a < w.heap.brk := r.lt_brk
  have hmem : ∀ a, a ∈ A ++ w.heap.brk :: B ↔ a = w.heap.brk ∨ a ∈ nodes := by
    intro a
    rw [hn]; simp only [List.mem_append, List.mem_cons]; tauto
  have hht : ∀ a < w.heap.brk, (linked m0 w.heap.brk (predA w A) level a).height = (w.heap.mem a).height := by
    intro a ha; simp [linked, hold a ha]
  refine ⟨_, rfl, ⟨rfl, rfl, by simp, ?_⟩, ⟨?_, ?_, ?_, ?_, ?_, ?_, ?_, ?_, ?_, ?_, ?_⟩, ?_, ?_, ?_⟩
  · intro a ha; simp [linked, hold a ha]
  · have := r.head_lt; simp; omega
  · have := r.tail_lt; simp; omega
  · exact r.head_ne
  · intro a ha
    rcases (hmem a).1 ha with h | h
    · simp [h]
    · have := hlt a h; simp; omega
  · intro a ha
    rcases (hmem a).1 ha with h | h
    · have := r.head_lt; simp [h]; omega
    · exact r.ne_head a h
  · intro a ha
    rcases (hmem a).1 ha with h | h
    · have := r.tail_lt; simp [h]; omega
    · exact r.ne_tail a h
  · rw [List.nodup_middle, List.nodup_cons, ← hn]
    exact ⟨fun h => Nat.lt_irrefl _ (hlt _ h), r.nodup⟩
  · intro a ha
    rcases (hmem a).1 ha with h | h
    · subst h; simp [linked, hm0n]; exact hr
    · simp only; rw [hht a (hlt a h)]; exact r.height a h
  · intro i hi
    have hc := r.chain i hi
    change Chain _ _ _ (lvl w i nodes) at hc
    rw [hn, lvl_append] at hc
    have hfl : ∀ l : List Addr, (∀ a ∈ l, a ∈ nodes) →
        l.filter (fun a => decide (i < (linked m0 w.heap.brk (predA w A) level a).height)) = lvl w i l := by
      intro l hl
      refine List.filter_congr (fun a ha => ?_)
      rw [hht a (hlt a (hl a ha))]
    simp only
    rw [List.filter_append, List.filter_cons, hfl _ hA, hfl _ hB]
    have hnd : (w.skl.head :: (lvl w i A ++ lvl w i B)).Nodup := by
      rw [← lvl_append, ← hn]
      exact r.head_nodup.sublist (List.Sublist.cons_cons _ List.filter_sublist)
    have hnn : w.heap.brk ∉ w.skl.head :: (lvl w i A ++ lvl w i B) := by
      rw [← lvl_append, ← hn]
      intro h
      rcases List.mem_cons.1 h with h | h
      · have := r.head_lt; omega
      · have := hlt _ (List.mem_filter.1 h).1; omega
    have hhn : (linked m0 w.heap.brk (predA w A) level w.heap.brk).height = level := by
      simp [linked, hm0n]
    rw [hhn]
    by_cases hil : i < level
    · simp only [hil, decide_true, if_true]
      refine Chain.insert hnd hnn ?_ ?_ ?_ hc
      · show _ = (w.heap.mem (predA w A i)).next i
        simp [linked, hil, hold _ (hpl i)]
      · show (linked m0 w.heap.brk (predA w A) level (predA w A i)).next i = _
        have hne : predA w A i ≠ w.heap.brk := by have := hpl i; omega
        simp only [linked, hil, if_true, if_neg hne]
      · intro b hb1 hb2
        have hb2 : b ≠ predA w A i := hb2
        simp [linked, hb1, hb2, hm0o b hb1]
    · simp only [hil, decide_false, Bool.false_eq_true, if_false]
      refine Chain.congr ?_ ?_ hc
      · simp [linked, hil, hm0o _ (by have := r.head_lt; omega : w.skl.head ≠ w.heap.brk)]
      · intro b hb
        rw [← lvl_append, ← hn] at hb
        have := hlt _ (List.mem_filter.1 hb).1
        simp [linked, hil, hm0o b (by omega)]
  · simp only
    have h1 := hpt 0
    have h2 := r.tail_lt
    have h3 := r.tail_next
    have h4 : w.skl.tail ≠ predA w A 0 := fun h => h1 h.symm
    simp [linked, h4, hm0o _ (by omega : w.skl.tail ≠ w.heap.brk), h3]
    intro _ h; omega
  · simp only
    rw [r.len, hn]
    simp; omega
  · simp [linked, hm0n]
  · simp [linked, hm0n]
  · intro a ha; simp [linked, hold a ha]

theorem Rep0.update {w : World K V} {nodes : List Addr} (r : Rep0 w nodes) (rh : Nat × BitVec 64)
    (k : K) (v : V) {x : Addr} {ctx : Nat → Option Addr} (hs : Skl.search w k = .ret (some x, ctx)) :
    ∃ w', Skl.insertWith rh w k v = .ret w' ∧ Frame w w' ∧ Rep0 w' nodes ∧ w'.heap.brk = w.heap.brk ∧
      (w'.heap.mem x).value = v ∧ ∀ a, a ≠ x → (w'.heap.mem a).value = (w.heap.mem a).value := by
  unfold Skl.insertWith
  rw [hs]
  have hkk : ∀ a, (setValue w.heap.mem x v a).key = (w.heap.mem a).key := by
    intro a; by_cases h : a = x <;> simp [setValue, h]
  have hh : ∀ a, (setValue w.heap.mem x v a).height = (w.heap.mem a).height := by
    intro a; by_cases h : a = x <;> simp [setValue, h]
  have hnx : ∀ a, (setValue w.heap.mem x v a).next = (w.heap.mem a).next := by
    intro a; by_cases h : a = x <;> simp [setValue, h]
  refine ⟨_, rfl, ⟨rfl, rfl, Nat.le_refl _, fun a _ => hkk a⟩,
    ⟨r.head_lt, r.tail_lt, r.head_ne, r.lt_brk, r.ne_head, r.ne_tail, r.nodup, ?_, ?_, ?_, r.len⟩, rfl, ?_, ?_⟩
  · simp only [hh]; exact r.height
  · simp only [hh, hnx]; exact r.chain
  · simp only [hnx]; exact r.tail_next
  · simp [setValue]
  · intro a ha; simp [setValue, ha]

theorem Rep0.delete {w : World K V} {nodes A S : List Addr} (r : Rep0 w nodes) (k : K) {x : Addr}
    {ctx : Nat → Option Addr} (hn : nodes = A ++ x :: S) (hctx : ∀ j < maxHeight, ctx j = some (predA w A j))
    (hs : Skl.search w k = .ret (some x, ctx)) :
    ∃ w', Skl.delete w k = .ret (w', true) ∧ Frame w w' ∧ w'.heap.brk = w.heap.brk ∧ Rep0 w' (A ++ S) ∧
      ∀ a, (w'.heap.mem a).key = (w.heap.mem a).key ∧ (w'.heap.mem a).value = (w.heap.mem a).value := by
  have hx : x ∈ nodes := by rw [hn]; simp
  have hhx := r.height x hx
  have hu := unlinkLoop_spec (m := w.heap.mem) (x := x) (ctx := ctx) (c := predA w A)
    (w.heap.mem x).height (fun j hj => hctx j (by omega))
  unfold Skl.delete
  rw [hs]
  simp only [Outcome.bind_ret, hu]
  have hsub : ∀ a, a ∈ A ++ S → a ∈ nodes := by
    intro a ha; rw [hn]; simp at ha ⊢; tauto
  have hpt : predA w A 0 ≠ w.skl.tail := by
    rcases predA_mem w A 0 with h | h
    · rw [h]; exact r.head_ne
    · exact r.ne_tail _ (hsub _ (by simp [h]))
  refine ⟨_, rfl, ⟨rfl, rfl, Nat.le_refl _, fun a _ => rfl⟩, rfl,
    ⟨r.head_lt, r.tail_lt, r.head_ne, fun a ha => r.lt_brk a (hsub a ha),
     fun a ha => r.ne_head a (hsub a ha), fun a ha => r.ne_tail a (hsub a ha), ?_, ?_, ?_, ?_, ?_⟩,
    fun a => ⟨rfl, rfl⟩⟩
  · have := r.nodup
    rw [hn] at this
    exact this.sublist (by simp)
  · intro a ha; exact r.height a (hsub a ha)
  · intro i hi
    have hc := r.chain i hi
    rw [hn, List.filter_append, List.filter_cons] at hc
    have hnd := r.head_nodup
    rw [hn] at hnd
    have hnd : (w.skl.head :: ((A ++ x :: S).filter fun a => decide (i < (w.heap.mem a).height))).Nodup :=
      hnd.sublist (List.Sublist.cons_cons _ List.filter_sublist)
    rw [List.filter_append, List.filter_cons] at hnd
    show Chain _ _ _ ((A ++ S).filter fun a => decide (i < (w.heap.mem a).height))
    rw [List.filter_append]
    by_cases hi' : i < (w.heap.mem x).height
    · simp only [hi', decide_true, if_true] at hc hnd
      refine Chain.remove hnd ?_ ?_ hc
      · show (unlinked w.heap.mem x (predA w A) (w.heap.mem x).height (predA w A i)).next i = _
        simp [unlinked, hi']
      · intro b hb
        have hb : b ≠ predA w A i := hb
        simp [unlinked, hb]
    · simp only [hi', decide_false, Bool.false_eq_true, if_false] at hc
      refine Chain.congr ?_ ?_ hc
      · simp [unlinked, hi']
      · intro b _; simp [unlinked, hi']
  · simp only
    have h4 : w.skl.tail ≠ predA w A 0 := fun h => hpt h.symm
    simp [unlinked, h4, r.tail_next]
  · simp only
    have h := congrArg List.length hn
    have h' := r.len
    simp at h ⊢; omega

variable [Inhabited K] [Inhabited V]

theorem Rep0.newIn (h : Heap K V) (seed : BitVec 64) : Rep0 (Skl.newIn h seed) [] := by
  refine ⟨?_, ?_, ?_, ?_, ?_, ?_, ?_, ?_, ?_, ?_, ?_⟩ <;> simp [Skl.newIn]
  intro i hi
  simp [Chain, hi]

theorem Rep0.chain0 {w : World K V} {nodes : List Addr} (r : Rep0 w nodes) :
    Chain (fun a => (w.heap.mem a).next 0) w.skl.tail w.skl.head nodes := by
  have hc := r.chain 0 (by decide)
  have : nodes.filter (fun a => decide (0 < (w.heap.mem a).height)) = nodes := by
    rw [List.filter_eq_self]
    intro a ha
    have := (r.height a ha).1
    simp; omega
  rwa [this] at hc

theorem Rep0.entries {w : World K V} {nodes : List Addr} (r : Rep0 w nodes) :
    Skl.entries w = .ret (kvs w nodes) :=
  drain_spec r.chain0 r.ne_tail (.inr ⟨rfl, rfl⟩) (by have := r.length_le; omega)

/-! ## The entries -/

theorem kvs_append (w : World K V) (A B : List Addr) : kvs w (A ++ B) = kvs w A ++ kvs w B := List.map_append ..

theorem kvs_congr {w w' : World K V} {l : List Addr}
    (h : ∀ a ∈ l, (w'.heap.mem a).key = (w.heap.mem a).key ∧ (w'.heap.mem a).value = (w.heap.mem a).value) :
    kvs w' l = kvs w l :=
  List.map_congr_left (fun a ha => by rw [(h a ha).1, (h a ha).2])

theorem place_kvs {w : World K V} {A B : List Addr} {k : K}
    (h1 : ∀ a ∈ A.getLast?, GoOrdered.lt (w.heap.mem a).key k = true)
    (h2 : ∀ b ∈ B.head?, GoOrdered.lt (w.heap.mem b).key k = false) : Place (kvs w A) k (kvs w B) := by
  refine ⟨?_, ?_⟩
  · intro e he
    simp only [kvs, List.getLast?_map, Option.mem_def, Option.map_eq_some_iff] at he
    obtain ⟨a, ha, rfl⟩ := he
    exact h1 a ha
  · intro e he
    simp only [kvs, List.head?_map, Option.mem_def, Option.map_eq_some_iff] at he
    obtain ⟨a, ha, rfl⟩ := he
    exact h2 a ha

theorem head_kvs {w : World K V} {B : List Addr} {k : K}
    (h : ∀ b ∈ B.head?, GoOrdered.eq (w.heap.mem b).key k = false) :
    ∀ b ∈ (kvs w B).head?, GoOrdered.eq b.1 k = false := by
  intro e he
  simp only [kvs, List.head?_map, Option.mem_def, Option.map_eq_some_iff] at he
  obtain ⟨a, ha, rfl⟩ := he
  exact h a ha

/-- A step is one of the changes of the specification. -/
theorem Rep0.set {w : World K V} {nodes : List Addr} (r : Rep0 w nodes) (k : K) (v : V) :
    ∃ w' nodes', Skl.set w k v = .ret w' ∧ Rep0 w' nodes' ∧ Change (kvs w nodes) (.set k v) (kvs w' nodes') := by
  obtain ⟨ctx, A, B, hn, hctx, h1, h2, ⟨x, S, rfl, he, hs⟩ | ⟨he, hs⟩⟩ := r.search k
  · obtain ⟨w', e, f, r', hb, hx, ho⟩ := r.update (randHeight w.skl.seed) k v hs
    refine ⟨w', nodes, e, r', ?_⟩
    have hnd := r.nodup
    rw [hn, List.nodup_middle, List.nodup_cons] at hnd
    have hc : ∀ l : List Addr, (∀ a ∈ l, a ∈ A ++ S) → kvs w' l = kvs w l := fun l hl => kvs_congr (fun a ha =>
      ⟨f.key a (r.lt_brk a (by have := hl a ha; rw [hn]; simp at this ⊢; tauto)),
        ho a (fun h => hnd.1 (by rw [← h]; exact hl a ha))⟩)
    have hx' : kvs w' (x :: S) = ((w.heap.mem x).key, v) :: kvs w S := by
      show ((w'.heap.mem x).key, (w'.heap.mem x).value) :: kvs w' S = _
      rw [hx, f.key x (r.lt_brk x (by rw [hn]; simp)), hc S (by simp +contextual)]
    have hA : kvs w' A = kvs w A := hc A (by simp +contextual)
    rw [hn, kvs_append, kvs_append, hA, hx']
    exact .replace (place_kvs (B := x :: S) h1 h2) he
  · obtain ⟨w', e, f, r', hk, hv, ho⟩ := r.insert k v (randHeight_range w.skl.seed) hn hctx hs
    refine ⟨w', _, e, r', ?_⟩
    have hc : ∀ l : List Addr, (∀ a ∈ l, a ∈ nodes) → kvs w' l = kvs w l := fun l hl => kvs_congr (fun a ha =>
      ⟨f.key a (r.lt_brk a (hl a ha)), ho a (r.lt_brk a (hl a ha))⟩)
    have hb : kvs w' (w.heap.brk :: B) = (k, v) :: kvs w B := by
      show ((w'.heap.mem w.heap.brk).key, (w'.heap.mem w.heap.brk).value) :: kvs w' B = _
      rw [hk, hv, hc B (fun a ha => by rw [hn]; simp [ha])]
    rw [kvs_append, hb, hc A (fun a ha => by rw [hn]; simp [ha]), hn, kvs_append]
    exact .add (place_kvs h1 h2) (head_kvs he)

theorem Rep0.del {w : World K V} {nodes : List Addr} (r : Rep0 w nodes) (k : K) :
    ∃ w' nodes' b, Skl.del w k = .ret (w', b) ∧ Rep0 w' nodes' ∧
      Change (kvs w nodes) (.del k) (kvs w' nodes') ∧ (kvs w nodes).length = (kvs w' nodes').length + b.toNat := by
  obtain ⟨ctx, A, B, hn, hctx, h1, h2, ⟨x, S, rfl, he, hs⟩ | ⟨he, hs⟩⟩ := r.search k
  · obtain ⟨w', e, f, hb, r', ho⟩ := r.delete k hn hctx hs
    refine ⟨w', _, true, e, r', ?_, ?_⟩
    · rw [kvs_congr (fun a _ => ho a), hn, kvs_append, kvs_append]
      exact .remove (place_kvs (B := x :: S) h1 h2) he
    · rw [kvs_congr (fun a _ => ho a), hn]
      simp [kvs]; omega
  · refine ⟨w, nodes, false, ?_, r, ?_, by simp⟩
    · show Skl.delete w k = _
      unfold Skl.delete
      rw [hs]; rfl
    · rw [hn, kvs_append]
      exact .miss (place_kvs h1 h2) (head_kvs he)

theorem Rep0.step {w : World K V} {nodes : List Addr} (r : Rep0 w nodes) (op : Op K V) :
    ∃ w' nodes', Skl.step w op = .ret w' ∧ Rep0 w' nodes' ∧ Change (kvs w nodes) op (kvs w' nodes') := by
  cases op with
  | set k v => exact r.set k v
  | del k =>
    obtain ⟨w', nodes', b, e, r', c, -⟩ := r.del k
    exact ⟨w', nodes', by simp [Skl.step, e], r', c⟩
  | clear seed => exact ⟨_, [], rfl, Rep0.newIn _ _, .clear⟩

theorem Rep0.run {w : World K V} {nodes : List Addr} (r : Rep0 w nodes) : ∀ hist : List (Op K V),
    ∃ w' nodes', Skl.run w hist = .ret w' ∧ Rep0 w' nodes' ∧ Changes (kvs w nodes) hist (kvs w' nodes') := by
  intro hist
  induction hist generalizing w nodes with
  | nil => exact ⟨w, nodes, rfl, r, .nil⟩
  | cons op hist ih =>
    obtain ⟨w1, n1, e1, r1, c1⟩ := r.step op
    obtain ⟨w2, n2, e2, r2, c2⟩ := ih r1
    exact ⟨w2, n2, by simp [Skl.run, e1, e2], r2, .cons c1 c2⟩

end
end Verif.Skl
