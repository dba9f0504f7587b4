import Verif.SklClear.Lemmas
/-!
# C110: clearing a skip-list map under an iterator
-/
set_option linter.unusedSectionVars false
namespace Verif.SklClear
open Verif.Go Verif.MapSpec Verif.Skl

variable {K V : Type} [GoOrdered K] [LawfulOrdered K] [DecidableEq K] [Inhabited K] [Inhabited V]

/-- The full statement: after `Clear`, and whatever is done to the map then, `Next` gives the smallest key now in the map after the
iterator's position, as it does without `Clear` (C05). -/
def C110_full (K V : Type) [GoOrdered K] [DecidableEq K] [Inhabited K] [Inhabited V] : Prop :=
  ∀ (seed s : BitVec 64) (hist ops : List (Op K V)) (w w' : World K V) (p : Pos K) (it : Iter), Reach seed hist w p it → p ≠ .done →
    run (Skl.clear w s) ops = .ret w' → ∃ it' res, Skl.next w' it = .ret (it', res) ∧ IsNext (hist ++ .clear s :: ops) p res

/-- **C110** (partial: for iterators that do not stand on an entry; missing are those that do, for which it is false,
`C110_refuted`.) -/
theorem C110_partial {seed : BitVec 64} {hist : List (Op K V)} {w : World K V} {it : Iter} (hr : Reach seed hist w .start it)
    (s : BitVec 64) (ops : List (Op K V)) : ∃ w' it' res, run (Skl.clear w s) ops = .ret w' ∧
      Skl.next w' it = .ret (it', res) ∧ IsNext (hist ++ .clear s :: ops) .start res := by
  obtain ⟨nodes, r, h, hp⟩ := (hr.clear (s' := s)).inv
  obtain ⟨w', n', e, r', h', _, _⟩ := run_above (b := 0) ops r h ⟨fun _ _ => Nat.zero_le _, Nat.zero_le _, Nat.zero_le _, Nat.zero_le _⟩
  obtain ⟨it', res, e', hi, _⟩ := next_spec (it := it) (p := .start) r' h' hp (by simp)
  exact ⟨w', it', res, e, e', by simpa using hi⟩

/-- What happens to an iterator that stands on `k` when the map is cleared, whatever is done to the map then: it goes on through the
old entries, then gives the zero key and the zero value with `ok = true`, and then panics. -/
theorem C110_stale {seed : BitVec 64} {hist : List (Op K V)} {w : World K V} {k : K} {it : Iter} (hr : Reach seed hist w (.at k) it)
    (s : BitVec 64) (ops : List (Op K V)) : ∃ (w' : World K V) (l : List (K × V)) (it' : Iter), run (Skl.clear w s) ops = .ret w' ∧
      l.Pairwise (fun a b => GoOrdered.lt a.1 b.1 = true) ∧ (∀ k' v', (k', v') ∈ l ↔ GoOrdered.lt k k' = true ∧ lookup hist k' = some v') ∧
      nexts w' (l.length + 1) it = .ret (it', l.map some ++ [some (default, default)]) ∧ Skl.next w' it' = .panic := by
  obtain ⟨nodes, r, h, x, hx, hit, hkx⟩ := hr.inv
  have tz := tail_zero hr
  have hc0 : ∀ a < w.heap.brk, (Skl.clear w s).heap.mem a = w.heap.mem a := by
    intro a ha
    have h1 : a ≠ w.heap.brk := by omega
    have h2 : a ≠ w.heap.brk + 1 := by omega
    simp [Skl.clear, Skl.newIn, h1, h2]
  have ab : Above w.heap.brk (Skl.clear w s) [] := by
    refine ⟨by simp, ?_, ?_, ?_⟩ <;> simp only [Skl.clear, newIn] <;> omega
  obtain ⟨w', n', e, r', h', g, m⟩ := run_above (hist := hist ++ [.clear s]) ops (Rep.newIn w.heap s) (by intro k v; simp [lookup]) ab
  have mm : ∀ a < w.heap.brk, w'.heap.mem a = w.heap.mem a := fun a ha => (m a ha).trans (hc0 a ha)
  obtain ⟨P, S, hn⟩ := List.append_of_mem hx
  have hsub : ∀ b ∈ x :: S, b ∈ nodes := fun b hb => by rw [hn]; simp at hb ⊢; tauto
  have hlt : ∀ b ∈ x :: S, b < w.heap.brk := fun b hb => r.lt_brk b (hsub b hb)
  have hc := r.chain0
  rw [hn] at hc
  have hc' : Chain (fun a => (w'.heap.mem a).next 0) w.skl.tail x S :=
    Chain.congr (fun b hb => by rw [mm b (hlt b hb)]) (Chain.from_mem hc)
  have ht : w.skl.tail ≠ w'.skl.tail := fun he => by have := g.tail; rw [← he] at this; have := r.tail_lt; omega
  have hnx := nexts_old ht S x it hc' (fun b hb he => by
    have h1 := hlt b (by simp [hb]); have h2 := g.tail; rw [← he] at h2; omega) hit
  have hkv : kvs w' (S ++ [w.skl.tail]) = kvs w S ++ [(default, default)] := by
    simp only [kvs, List.map_append, List.map_cons, List.map_nil, mm _ r.tail_lt, tz]
    congr 1
    exact List.map_congr_left fun b hb => by rw [mm b (hlt b (by simp [hb]))]
  rw [hkv, List.map_append] at hnx
  have hso := r.sorted
  rw [hn, List.pairwise_append, List.pairwise_cons] at hso
  refine ⟨w', kvs w S, _, e, ?_, ?_, by rw [show (kvs w S).length = S.length by simp [kvs]]; exact hnx, ?_⟩
  · rw [kvs, List.pairwise_map]; exact hso.2.1.2
  · intro k' v'
    simp only [kvs, List.mem_map, Prod.mk.injEq]
    constructor
    · rintro ⟨a, ha, hk, hva⟩
      refine ⟨?_, (h k' v').2 ⟨a, hsub a (by simp [ha]), hk, hva⟩⟩
      rw [← hkx, ← hk]; exact hso.2.1.1 a ha
    · rintro ⟨hkk, hl⟩
      obtain ⟨a, ha, hk, hva⟩ := (h k' v').1 hl
      refine ⟨a, ?_, hk, hva⟩
      rw [hn] at ha
      simp only [List.mem_append, List.mem_cons] at ha
      rcases ha with ha | rfl | ha
      · have := hso.2.2 a ha x (by simp)
        rw [hk, hkx, lt_asymm hkk] at this; cases this
      · rw [← hk, hkx, LawfulOrdered.irrefl] at hkk; cases hkk
      · exact ha
  · simp [Skl.next, mm _ r.tail_lt, r.tail_next]

/-- A map with the keys 1 and 2 and an iterator on 1. -/
theorem standing : ∃ w it, Reach (K := Int) (V := Int) 0#64 [.set 1 10, .set 2 20] w (.at 1) it := by
  obtain ⟨w1, e1⟩ := (C05_calls_return (Reach.init (K := Int) (V := Int) (s := 0#64)) 1 10).1
  have r1 := Reach.init.set e1
  obtain ⟨w2, e2⟩ := (C05_calls_return r1 2 20).1
  have r2 := r1.set e2
  obtain ⟨it', res, e, hn⟩ := C05_iteration_under_modification r2 (by simp)
  have hres : res = some (1, 10) := by
    refine C05_isNext_unique hn ⟨trivial, by decide, ?_⟩
    intro z _ hz
    simp only [lookup, List.nil_append, List.cons_append, List.foldl_cons, List.foldl_nil] at hz
    by_cases h1 : z = 1
    · exact .inl h1
    · by_cases h3 : z = 2
      · exact .inr (by simp [GoOrdered.lt, h3])
      · simp [h1, h3] at hz
  subst hres
  exact ⟨w2, it', r2.next (by simp) e⟩

/-- **C110** is false of the code: the map was cleared, and the iterator gives the key 2. -/
theorem C110_refuted : ¬ C110_full Int Int := by
  intro hf
  obtain ⟨w, it, hr⟩ := standing
  obtain ⟨w', l, it', e, hs, hl, hx, _⟩ := C110_stale hr 0#64 []
  obtain ⟨it'', res, en, hi⟩ := hf _ 0#64 _ [] _ _ _ _ hr (by simp) e
  rw [nexts, en] at hx
  cases res with
  | none =>
    simp only [Outcome.bind_ret] at hx
    cases l with
    | nil => simp [nexts] at hx
    | cons a l =>
      cases hq : nexts w' (l.length + 1) it'' <;> simp [hq] at hx
  | some kv =>
    have := hi.2.1
    simp [lookup] at this

end Verif.SklClear
