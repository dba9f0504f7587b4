import Verif.SklShare.Spec
import Verif.Conc.RWLocal
/-!
# Lemmas for the shared skip-list map
-/
namespace Verif.SklShare
open Verif.Go Verif.Conc Verif.Skl Verif.MapSpec Relation

variable {K V : Type} [GoOrdered K] [LawfulOrdered K] [DecidableEq K] [Inhabited K] [Inhabited V]

/-- A position of a search that has not gone too far. -/
structure SearchOk (w : World K V) (nodes : List Nat) (k : K) (x i : Nat) : Prop where
  le : i ≤ maxHeight
  mem : x = w.skl.head ∨ x ∈ before w nodes k ∧ i ≤ (w.heap.mem x).height
  last : i = 0 → x = pred w nodes k 0

/-- How many nodes come after. -/
def rem (w : World K V) (nodes : List Nat) (x : Nat) : Nat :=
  if x = w.skl.head then nodes.length else (nodes.filter fun a => GoOrdered.lt (w.heap.mem x).key (w.heap.mem a).key).length

omit [DecidableEq K] [Inhabited K] [Inhabited V] in
theorem rem_lt {w : World K V} {nodes : List Nat} (r : Rep w nodes) {x y : Nat} (hy : y ∈ nodes)
    (hx : x = w.skl.head ∨ x ∈ nodes ∧ GoOrdered.lt (w.heap.mem x).key (w.heap.mem y).key = true) : rem w nodes y < rem w nodes x := by
  have irr : GoOrdered.lt (w.heap.mem y).key (w.heap.mem y).key = false := LawfulOrdered.irrefl _
  unfold rem
  rw [if_neg (r.ne_head y hy)]
  rcases hx with hx | ⟨hx, hl⟩
  · rw [if_pos hx]
    refine List.length_filter_lt_length_iff_exists.2 ⟨y, hy, by simp [irr]⟩
  · rw [if_neg (r.ne_head x hx)]
    have e : nodes.filter (fun a => GoOrdered.lt (w.heap.mem y).key (w.heap.mem a).key) =
        (nodes.filter fun a => GoOrdered.lt (w.heap.mem x).key (w.heap.mem a).key).filter
          fun a => GoOrdered.lt (w.heap.mem y).key (w.heap.mem a).key := by
      rw [List.filter_filter]
      refine List.filter_congr fun a _ => ?_
      cases h : GoOrdered.lt (w.heap.mem y).key (w.heap.mem a).key with
      | false => simp
      | true => simp [LawfulOrdered.trans _ _ _ hl h]
    rw [e]
    exact List.length_filter_lt_length_iff_exists.2 ⟨y, List.mem_filter.2 ⟨hy, hl⟩, by simp [irr]⟩

omit [DecidableEq K] [Inhabited K] [Inhabited V] in
/-- What comes next on a level. -/
theorem next_level {w : World K V} {nodes : List Nat} (r : Rep w nodes) {k : K} {x i : Nat} (ok : SearchOk w nodes k x (i + 1)) :
    (w.heap.mem x).next i = some w.skl.tail ∨ ∃ y, (w.heap.mem x).next i = some y ∧ y ∈ nodes ∧ i < (w.heap.mem y).height ∧
      (x = w.skl.head ∨ x ∈ nodes ∧ GoOrdered.lt (w.heap.mem x).key (w.heap.mem y).key = true) := by
  have hc := r.chain i (by have := ok.le; omega)
  have hs : (nodes.filter fun a => decide (i < (w.heap.mem a).height)).Pairwise
      fun a b => GoOrdered.lt (w.heap.mem a).key (w.heap.mem b).key = true := r.sorted.sublist List.filter_sublist
  have hm : ∀ y ∈ nodes.filter fun a => decide (i < (w.heap.mem a).height), y ∈ nodes ∧ i < (w.heap.mem y).height := by
    intro y hy; simpa using hy
  rcases ok.mem with rfl | ⟨h1, h2⟩
  · generalize nodes.filter (fun a => decide (i < (w.heap.mem a).height)) = l at *
    cases l with
    | nil => exact .inl hc
    | cons y l => exact .inr ⟨y, hc.1, (hm y (by simp)).1, (hm y (by simp)).2, .inl rfl⟩
  · have hx : x ∈ nodes.filter fun a => decide (i < (w.heap.mem a).height) := by
      simp only [List.mem_filter, decide_eq_true_eq]
      exact ⟨(Rep.mem_before.1 h1).1, by omega⟩
    obtain ⟨P, S, e⟩ := List.append_of_mem hx
    rw [e] at hc hs hm
    have hc' := Skl.Chain.drop hc
    cases S with
    | nil => exact .inl hc'
    | cons y S =>
      have := hm y (by simp)
      refine .inr ⟨y, hc'.1, this.1, this.2, .inr ⟨(Rep.mem_before.1 h1).1, ?_⟩⟩
      exact (List.pairwise_cons.1 (List.pairwise_append.1 hs).2.1).1 y (by simp)

omit [DecidableEq K] [Inhabited K] [Inhabited V] in
theorem ok_move {w : World K V} {nodes : List Nat} (r : Rep w nodes) {k : K} {x i y : Nat} (ok : SearchOk w nodes k x (i + 1))
    (hn : (w.heap.mem x).next i = some y) (ht : y ≠ w.skl.tail) (hl : GoOrdered.lt (w.heap.mem y).key k = true) :
    SearchOk w nodes k y (i + 1) ∧ rem w nodes y < rem w nodes x := by
  rcases next_level r ok with h | ⟨z, h, h1, h2, h3⟩
  · rw [hn] at h; exact absurd (Option.some.inj h) ht
  · rw [hn] at h; cases h
    exact ⟨⟨ok.le, .inr ⟨Rep.mem_before.2 ⟨h1, hl⟩, h2⟩, fun h => by omega⟩, rem_lt r h1 h3⟩

omit [DecidableEq K] [Inhabited K] [Inhabited V] in
theorem ok_down {w : World K V} {nodes : List Nat} (r : Rep w nodes) {k : K} {x i y : Nat} (ok : SearchOk w nodes k x (i + 1))
    (hn : (w.heap.mem x).next i = some y) (hl : y = w.skl.tail ∨ GoOrdered.lt (w.heap.mem y).key k = false) :
    SearchOk w nodes k x i := by
  have h := r.walk k (i := i) (x := x) (by have := ok.le; omega) (by
    rcases ok.mem with h | ⟨h1, h2⟩
    · exact .inl h
    · exact .inr (by simp only [List.mem_filter, decide_eq_true_eq]; exact ⟨h1, by omega⟩))
  have h' : Skl.walk w.heap.mem w.skl.tail i k (w.heap.brk + 1) x = .ret x := by
    rcases hl with rfl | hl
    · simp [Skl.walk, hn]
    · simp [Skl.walk, hn, hl]
  rw [h'] at h
  refine ⟨by have := ok.le; omega, ?_, ?_⟩
  · rcases ok.mem with h | ⟨h1, h2⟩
    · exact .inl h
    · exact .inr ⟨h1, by omega⟩
  · rintro rfl
    exact Outcome.ret.inj h

omit [DecidableEq K] [Inhabited K] [Inhabited V] in
theorem found_iff {w : World K V} {nodes : List Nat} (r : Rep w nodes) {k : K} {x : Nat} (ok : SearchOk w nodes k x 0) {o : Option Nat} :
    Found w k x o ↔ ∃ ctx, Skl.search w k = .ret (o, ctx) := by
  obtain ⟨ctx, h1, _⟩ := r.searchLoop k maxHeight w.skl.head (fun _ => none) (Nat.le_refl _) (.inl rfl)
  rw [if_neg (by decide), ← ok.last rfl] at h1
  constructor
  · rintro (⟨a, b, c⟩ | ⟨a, b⟩)
    · exact ⟨ctx, by simp [Skl.search, h1, a, b, c]⟩
    · rcases b with b | b <;> exact ⟨ctx, by simp [Skl.search, h1, a, b]⟩
  · rintro ⟨ctx', e⟩
    simp only [Skl.search, h1, Outcome.bind_ret] at e
    split at e
    · cases e
    · rename_i y hy
      split at e
      · rename_i hc
        cases e
        exact .no hy hc
      · rename_i hc
        cases e
        rw [not_or] at hc
        exact .yes hy hc.1 (by simpa using hc.2)

/-- What a call has in its local variables. -/
def LocOk (w : World K V) (nodes : List Nat) (c : Call K V) : Loc K V → Prop
  | .start => True
  | .at x i => ∃ k, (c = .get k ∨ c = .seek k) ∧ SearchOk w nodes k x i
  | .list acc it => (c = .keys ∨ c = .values ∨ c = .all) ∧ ∃ P S a, nodes = P ++ S ∧ acc = kvs w P ∧
      Chain (fun a => (w.heap.mem a).next 0) w.skl.tail a S ∧ (it.node = some a ∨ it.node = none ∧ a = w.skl.head)

/-- How many rounds are left at most. -/
def left (w : World K V) (nodes : List Nat) : Loc K V → Nat
  | .start => nodes.length + maxHeight + 1
  | .at x i => rem w nodes x + i
  | .list acc _ => nodes.length - acc.length

theorem key_eq {c : Call K V} {k k' : K} (h : c = .get k ∨ c = .seek k) (h' : c = .get k' ∨ c = .seek k') : k = k' := by
  rcases h with rfl | rfl <;> rcases h' with h' | h' <;> cases h' <;> rfl

theorem loc_step {w : World K V} {nodes : List Nat} (r : Rep w nodes) {c : Call K V} {a b : Loc K V} (ok : LocOk w nodes c a)
    (st : Iterate w c a b) : LocOk w nodes c b ∧ left w nodes b < left w nodes a := by
  cases st with
  | @get k => exact ⟨⟨k, .inl rfl, ⟨Nat.le_refl _, .inl rfl, fun h => by simp [maxHeight] at h⟩⟩, by simp [left, rem]⟩
  | @seek k => exact ⟨⟨k, .inr rfl, ⟨Nat.le_refl _, .inl rfl, fun h => by simp [maxHeight] at h⟩⟩, by simp [left, rem]⟩
  | move hc hn ht hl =>
    obtain ⟨k', hk, ok⟩ := ok
    obtain rfl := key_eq hc hk
    obtain ⟨h1, h2⟩ := ok_move r ok hn ht hl
    exact ⟨⟨_, hc, h1⟩, by simp only [left]; omega⟩
  | down hc hn hl =>
    obtain ⟨k', hk, ok⟩ := ok
    obtain rfl := key_eq hc hk
    exact ⟨⟨_, hc, ok_down r ok hn hl⟩, by simp only [left]; omega⟩
  | list hc => exact ⟨⟨hc, [], nodes, w.skl.head, rfl, rfl, r.chain0, .inr ⟨rfl, rfl⟩⟩, by simp [left]; omega⟩
  | next hc hn =>
    obtain ⟨_, P, S, x, rfl, rfl, h3, h4⟩ := ok
    cases S with
    | nil => rw [next_nil h3 h4] at hn; cases hn
    | cons y S =>
      rw [next_cons h3 (r.ne_tail y (by simp)) h4] at hn
      cases hn
      refine ⟨⟨hc, P ++ [y], S, y, by simp, by simp [kvs], h3.2, .inl rfl⟩, ?_⟩
      simp [left, kvs]
      omega

theorem loc_steps {w : World K V} {nodes : List Nat} (r : Rep w nodes) {c : Call K V} {a : Loc K V}
    (h : ReflTransGen (Iterate w c) .start a) : LocOk w nodes c a := by
  induction h with
  | refl => trivial
  | tail _ st ih => exact (loc_step r ih st).1

/-- The memory has the shape of a skip list and holds what the calls put there. -/
theorem mem_rep {seed : BitVec 64} {w : World K V} {hist : List (Op K V)} (h : run (Skl.new seed) hist = .ret w) :
    ∃ nodes, Rep w nodes ∧ Abs hist w nodes := by
  obtain ⟨w', nodes, e, r, a⟩ := run_rep seed hist
  rw [h] at e
  cases e
  exact ⟨nodes, r, a⟩

theorem run_snoc {w w' w'' : World K V} {hist : List (Op K V)} {op : Op K V} (h : run w hist = .ret w') (h' : step w' op = .ret w'') :
    run w (hist ++ [op]) = .ret w'' := by
  rw [run_append, h]
  simp [run, h']

theorem readsOnly {seed : BitVec 64} : RW.ReadsOnly (shared K V seed) := by
  intro s c acc r s' hw h
  cases h <;> first | rfl | (simp [shared, writes] at hw)

theorem listed {hist : List (Op K V)} {w : World K V} {nodes : List Nat} (r : Rep w nodes) (h : Abs hist w nodes) :
    Listed (lookup hist) (kvs w nodes) := by
  refine ⟨?_, fun k v => ?_⟩
  · rw [kvs, List.pairwise_map]
    exact r.sorted
  · rw [h k v]
    simp [kvs]

theorem live {seed : BitVec 64} : RW.Live (shared K V seed) := by
  rintro ⟨w, hist, e⟩ c acc h
  obtain ⟨nodes, r, ab⟩ := mem_rep e
  have ok := loc_steps r h
  have found : ∀ k x, SearchOk w nodes k x 0 → ∃ o, Found w k x o := by
    intro k x ok
    obtain ⟨ctx, _, ⟨y, _, _, _, hs⟩ | ⟨_, hs⟩⟩ := r.search k
    · exact ⟨_, (found_iff r ok).2 ⟨_, hs⟩⟩
    · exact ⟨_, (found_iff r ok).2 ⟨_, hs⟩⟩
  cases acc with
  | start =>
    cases c with
    | set k v =>
      obtain ⟨w', _, e', _⟩ := set_step r ab k v
      exact .inr ⟨_, ⟨w', _, run_snoc e (op := .set k v) e'⟩, .set e'⟩
    | del k =>
      obtain ⟨w', _, e', _⟩ := del_step r ab k
      exact .inr ⟨_, ⟨w', _, run_snoc e (op := .del k) (by simp [step, e'])⟩, .del e'⟩
    | clear s => exact .inr ⟨_, ⟨Skl.clear w s, _, run_snoc e (op := .clear s) rfl⟩, .clear rfl⟩
    | get k => exact .inl ⟨_, .get⟩
    | seek k => exact .inl ⟨_, .seek⟩
    | len => exact .inr ⟨_, _, .len⟩
    | keys => exact .inl ⟨_, .list (.inl rfl)⟩
    | values => exact .inl ⟨_, .list (.inr (.inl rfl))⟩
    | all => exact .inl ⟨_, .list (.inr (.inr rfl))⟩
  | «at» x i =>
    obtain ⟨k, hc, ok⟩ := ok
    cases i with
    | zero =>
      obtain ⟨o, ho⟩ := found k x ok
      rcases hc with rfl | rfl
      · exact .inr ⟨_, _, .get ho⟩
      · exact .inr ⟨_, _, .seek ho⟩
    | succ i =>
      left
      rcases next_level r ok with hn | ⟨y, hn, hy, _, _⟩
      · exact ⟨_, .down hc hn (.inl rfl)⟩
      · cases hl : GoOrdered.lt (w.heap.mem y).key k with
        | true => exact ⟨_, .move hc hn (r.ne_tail y hy) hl⟩
        | false => exact ⟨_, .down hc hn (.inr hl)⟩
  | list acc it =>
    obtain ⟨hc, P, S, a, rfl, rfl, h3, h4⟩ := ok
    cases S with
    | nil =>
      have hn := next_nil h3 h4
      rcases hc with rfl | rfl | rfl
      · exact .inr ⟨_, _, .keys hn⟩
      · exact .inr ⟨_, _, .values hn⟩
      · exact .inr ⟨_, _, .all hn⟩
    | cons y S => exact .inl ⟨_, .next hc (next_cons h3 (r.ne_tail y (by simp)) h4)⟩

open Classical in
/-- The rounds left, for any memory. -/
noncomputable def bound {seed : BitVec 64} (w : Mem K V seed) (_ : Call K V) (l : Loc K V) : Nat :=
  if h : ∃ nodes, Rep w.1 nodes then left w.1 h.choose l else 0

theorem shrinks {seed : BitVec 64} : RW.ShrinksFrom (shared K V seed) bound := by
  rintro ⟨w, hist, e⟩ c acc acc' h st
  obtain ⟨nodes, r, -⟩ := mem_rep e
  have hr : ∃ nodes, Rep w nodes := ⟨nodes, r⟩
  simp only [bound, dif_pos hr]
  exact (loc_step hr.choose_spec (loc_steps hr.choose_spec h) st).2

/-- Memory and map agree. -/
def Agree {seed : BitVec 64} (w : Mem K V seed) (m : K → Option V) : Prop :=
  ∃ hist, run (Skl.new seed) hist = .ret w.1 ∧ m = lookup hist

theorem sim_step {seed : BitVec 64} (w w' : Mem K V seed) (c : Call K V) (x : Res K V) (m : K → Option V) (ag : Agree w m)
    (h : (RW.seqObj (shared K V seed)).step w c x w') : ∃ m', (mapObj K V).step m c x m' ∧ Agree w' m' := by
  obtain ⟨hist, e, rfl⟩ := ag
  obtain ⟨nodes, r, ab⟩ := mem_rep e
  obtain ⟨acc, hi, hf⟩ := h
  have ok := loc_steps r hi
  have ls := listed r ab
  have fnd : ∀ {k x o}, SearchOk w.1 nodes k x 0 → Found w.1 k x o →
      (o.map fun y => ((w.1.heap.mem y).key, (w.1.heap.mem y).value)) = (lookup hist k).map fun v => (k, v) := by
    intro k x o ok hf
    obtain ⟨ctx, hs⟩ := (found_iff r ok).1 hf
    obtain ⟨ctx', _, ⟨y, S, hn, hy, hs'⟩ | ⟨hk, hs'⟩⟩ := r.search k
    · rw [hs] at hs'; cases hs'
      have : lookup hist k = some (w.1.heap.mem y).value := (ab k _).2 ⟨y, by rw [hn]; simp, hy, rfl⟩
      simp [this, hy]
    · rw [hs] at hs'; cases hs'
      simp [(ab.none_iff k).2 hk]
  have all : ∀ {acc : List (K × V)} {it it' : Iter}, LocOk w.1 nodes c (.list acc it) → next w.1 it = .ret (it', none) →
      acc = kvs w.1 nodes := by
    rintro acc it it' ⟨_, P, S, a, rfl, rfl, h3, h4⟩ hn
    cases S with
    | nil => simp
    | cons y S => rw [next_cons h3 (r.ne_tail y (by simp)) h4] at hn; cases hn
  cases hf with
  | @set k v _ e' =>
    exact ⟨_, ⟨rfl, rfl⟩, _, run_snoc e (op := .set k v) e', by funext k'; rw [lookup_set]⟩
  | @del k b _ e' =>
    obtain ⟨w1, _, e1, _⟩ := del_step r ab k
    rw [e1] at e'; cases e'
    exact ⟨_, ⟨rfl, rfl⟩, _, run_snoc e (op := .del k) (by simp [step, e1]), by funext k'; rw [lookup_del]⟩
  | @clear s _ e' =>
    exact ⟨_, ⟨rfl, rfl⟩, _, run_snoc e (op := .clear s) (by rw [e']; rfl), by funext k'; rw [lookup_clear]⟩
  | @get k x o hf =>
    obtain ⟨k', hk, ok⟩ := ok
    obtain rfl : k = k' := key_eq (.inl rfl) hk
    have := congrArg (Option.map Prod.snd) (fnd ok hf)
    simp only [Option.map_map, Function.comp_def, Option.map_id'] at this
    exact ⟨_, ⟨by rw [this], rfl⟩, hist, e, rfl⟩
  | @seek k x o hf =>
    obtain ⟨k', hk, ok⟩ := ok
    obtain rfl : k = k' := key_eq (.inr rfl) hk
    exact ⟨_, ⟨by rw [fnd ok hf], rfl⟩, hist, e, rfl⟩
  | len => exact ⟨_, ⟨⟨_, ls, by rw [Skl.len, r.len]; simp [kvs]⟩, rfl⟩, hist, e, rfl⟩
  | keys hn => exact ⟨_, ⟨⟨_, ls, by rw [all ok hn]⟩, rfl⟩, hist, e, rfl⟩
  | values hn => exact ⟨_, ⟨⟨_, ls, by rw [all ok hn]⟩, rfl⟩, hist, e, rfl⟩
  | all hn => exact ⟨_, ⟨⟨_, ls, by rw [all ok hn]⟩, rfl⟩, hist, e, rfl⟩

end Verif.SklShare
