import Verif.Skl.Refine
/-!
# An iterator whose key is deleted

A removed node keeps its next pointer, so the iterator goes on to the entry that followed it then.
-/
set_option linter.unusedSectionVars false
namespace Verif.Skl
open Verif.Go Verif.MapSpec

section
variable {K V : Type} [GoOrdered K] [LawfulOrdered K] [DecidableEq K] [Inhabited K] [Inhabited V]

theorem insertWith_mem {w w' : World K V} {nodes : List Addr} (r : Rep w nodes) {k : K} {v : V} {rh : Nat × BitVec 64}
    (hr : 1 ≤ rh.1 ∧ rh.1 ≤ maxHeight) (e : Skl.insertWith rh w k v = .ret w') {a : Addr} (h1 : a < w.heap.brk) (h2 : a ∉ nodes)
    (h3 : a ≠ w.skl.head) : w'.heap.mem a = w.heap.mem a := by
  have hp : ∀ i, a ≠ pred w nodes k i := by
    intro i hi
    rcases pred_mem w nodes k i with h | h
    · exact h3 (hi.trans h)
    · simp only [List.mem_filter, before] at h
      exact h2 (hi ▸ h.1.1)
  obtain ⟨ctx, hctx, ⟨x, S, hn, hx, hs⟩ | ⟨_, hs⟩⟩ := r.search k
  · simp only [Skl.insertWith, hs, Outcome.bind_ret, Outcome.ret_inj] at e
    subst e
    have : a ≠ x := fun h => h2 (by rw [hn, h]; simp)
    simp [setValue, this]
  · obtain ⟨level, seed⟩ := rh
    simp only at hr
    have hl := fun m0 : Addr → Node K V => linkLoop_spec (m := m0) (node := w.heap.brk) (ctx := ctx) (c := pred w nodes k)
      level (fun j hj => hctx j (by omega)) (fun j _ => by have := r.pred_lt k j; omega)
    simp only [Skl.insertWith, hs, Outcome.bind_ret, hl, Outcome.ret_inj] at e
    subst e
    have hb : a ≠ w.heap.brk := by omega
    simp [linked, hb, hp]

/-- `Set` leaves nodes outside the list alone. -/
theorem set_mem {w w' : World K V} {nodes : List Addr} (r : Rep w nodes) {k : K} {v : V}
    (e : Skl.set w k v = .ret w') {a : Addr} (h1 : a < w.heap.brk) (h2 : a ∉ nodes) (h3 : a ≠ w.skl.head) :
    w'.heap.mem a = w.heap.mem a := insertWith_mem r (randHeight_range _) e h1 h2 h3

/-- `Del` leaves nodes outside the list alone, and the node it removes. -/
theorem del_mem {w w' : World K V} {nodes : List Addr} (r : Rep w nodes) {k : K} {b : Bool}
    (e : Skl.del w k = .ret (w', b)) {a : Addr} (h2 : a ∈ nodes → (w.heap.mem a).key = k) (h3 : a ≠ w.skl.head) :
    w'.heap.mem a = w.heap.mem a := by
  have hp : ∀ i, a ≠ pred w nodes k i := by
    intro i hi
    rcases pred_mem w nodes k i with h | h
    · exact h3 (hi.trans h)
    · simp only [List.mem_filter, before] at h
      have := h2 (hi ▸ h.1.1)
      have hl := h.1.2
      rw [← hi, this, LawfulOrdered.irrefl] at hl
      cases hl
  obtain ⟨ctx, hctx, ⟨x, S, hn, hx, hs⟩ | ⟨_, hs⟩⟩ := r.search k
  · have hhx := r.height x (by rw [hn]; simp)
    have hu := unlinkLoop_spec (m := w.heap.mem) (x := x) (ctx := ctx) (c := pred w nodes k)
      (w.heap.mem x).height (fun j hj => hctx j (by omega))
    simp only [Skl.del, Skl.delete, hs, Outcome.bind_ret, hu, Outcome.ret_inj, Prod.mk.injEq] at e
    rw [← e.1]
    simp [unlinked, hp]
  · simp only [Skl.del, Skl.delete, hs, Outcome.bind_ret, Outcome.ret_inj, Prod.mk.injEq] at e
    rw [← e.1]

/-- The iterator stands on a removed node whose next pointer leads to the entry with key `q`, or to the end. -/
def Gone (w : World K V) (nodes : List Addr) (it : Iter) (q : Option K) : Prop :=
  ∃ x y, it.node = some x ∧ x ∉ nodes ∧ x ≠ w.skl.head ∧ x < w.heap.brk ∧ (w.heap.mem x).next 0 = some y ∧
    match q with
    | none => y = w.skl.tail
    | some k => y ∈ nodes ∧ (w.heap.mem y).key = k

theorem Gone.set {w w' : World K V} {nodes nodes' : List Addr} {it : Iter} {q : Option K}
    (g : Gone w nodes it q) (r : Rep w nodes) {k : K} {v : V} (e : Skl.set w k v = .ret w') (f : Frame w w')
    (h1 : ∀ a ∈ nodes, a ∈ nodes') (h2 : ∀ a ∈ nodes', a ∈ nodes ∨ a = w.heap.brk) : Gone w' nodes' it q := by
  obtain ⟨x, y, hi, hx, hh, hb, hn, hq⟩ := g
  refine ⟨x, y, hi, ?_, by rw [f.head]; exact hh, lt_of_lt_of_le hb f.brk, by rw [set_mem r e hb hx hh]; exact hn, ?_⟩
  · intro h
    rcases h2 x h with h | h
    · exact hx h
    · omega
  · cases q with
    | none => rw [f.tail]; exact hq
    | some k' => exact ⟨h1 y hq.1, by rw [f.key y (r.lt_brk y hq.1)]; exact hq.2⟩

theorem Gone.del {w w' : World K V} {nodes nodes' : List Addr} {it : Iter} {q : Option K}
    (g : Gone w nodes it q) (r : Rep w nodes) {k : K} {b : Bool} (e : Skl.del w k = .ret (w', b)) (f : Frame w w')
    (h1 : ∀ a ∈ nodes, (w.heap.mem a).key ≠ k → a ∈ nodes') (h2 : ∀ a ∈ nodes', a ∈ nodes ∧ (w.heap.mem a).key ≠ k)
    (hq : q ≠ some k) : Gone w' nodes' it q := by
  obtain ⟨x, y, hi, hx, hh, hb, hn, hq'⟩ := g
  refine ⟨x, y, hi, fun h => hx (h2 x h).1, by rw [f.head]; exact hh, lt_of_lt_of_le hb f.brk,
    by rw [del_mem r e (fun h => absurd h hx) hh]; exact hn, ?_⟩
  cases q with
  | none => rw [f.tail]; exact hq'
  | some k' => exact ⟨h1 y hq'.1 (fun h => hq (by rw [← hq'.2, h])), by rw [f.key y (r.lt_brk y hq'.1)]; exact hq'.2⟩

/-- The key that follows: the smallest present one after `k`. -/
def IsSucc (hist : List (Op K V)) (k : K) (q : Option K) : Prop :=
  match q with
  | none => ∀ z, GoOrdered.lt k z = true → lookup hist z = none
  | some k' => GoOrdered.lt k k' = true ∧ (lookup hist k').isSome ∧
      ∀ z, GoOrdered.lt k z = true → (lookup hist z).isSome → z = k' ∨ GoOrdered.lt k' z = true

/-- Deleting the iterator's key. -/
theorem del_at {hist : List (Op K V)} {w : World K V} {nodes : List Addr} (r : Rep w nodes) (h : Abs hist w nodes)
    {it : Iter} {k : K} (hp : PosOk w nodes it (.at k)) :
    ∃ w' nodes' q, Skl.del w k = .ret (w', true) ∧ Rep w' nodes' ∧ Abs (hist ++ [.del k]) w' nodes' ∧ Frame w w' ∧
      IsSucc hist k q ∧ Gone w' nodes' it q := by
  obtain ⟨x, hx, hi, hk⟩ := hp
  obtain ⟨w', nodes', e, r', h', f, h1, h2⟩ := del_step r h k
  have hl : lookup hist k = some (w.heap.mem x).value := (h k _).2 ⟨x, hx, hk, rfl⟩
  rw [hl] at e
  obtain ⟨P, S, hn⟩ := List.append_of_mem hx
  have hc := r.chain0
  rw [hn] at hc
  have hc := Chain.from_mem hc
  have hso := r.sorted
  rw [hn, List.pairwise_append, List.pairwise_cons] at hso
  have hmem := del_mem r e (a := x) (fun _ => hk) (r.ne_head x hx)
  have hxn : x ∉ nodes' := fun h => (h2 x h).2 hk
  have hS : ∀ z, GoOrdered.lt k z = true → (lookup hist z).isSome → ∃ b ∈ S, (w.heap.mem b).key = z := by
    intro z hz hs
    obtain ⟨v, hv⟩ := Option.isSome_iff_exists.1 hs
    obtain ⟨b, hb, hkb, _⟩ := (h z v).1 hv
    rw [hn] at hb
    simp only [List.mem_append, List.mem_cons] at hb
    rcases hb with hb | rfl | hb
    · have := hso.2.2 b hb x (by simp)
      rw [hkb, hk, lt_asymm hz] at this; cases this
    · rw [← hkb, hk, LawfulOrdered.irrefl] at hz; cases hz
    · exact ⟨b, hb, hkb⟩
  cases S with
  | nil =>
    refine ⟨w', nodes', none, e, r', h', f, ?_, x, w.skl.tail, hi, hxn, by rw [f.head]; exact r.ne_head x hx,
      lt_of_lt_of_le (r.lt_brk x hx) f.brk, by rw [hmem]; exact hc, f.tail.symm⟩
    intro z hz
    cases hs : lookup hist z with
    | none => rfl
    | some v =>
      obtain ⟨b, hb, _⟩ := hS z hz (by rw [hs]; rfl)
      simp at hb
  | cons b S =>
    have hbn : b ∈ nodes := by rw [hn]; simp
    have hlt : GoOrdered.lt k (w.heap.mem b).key = true := by rw [← hk]; exact hso.2.1.1 b (by simp)
    refine ⟨w', nodes', some (w.heap.mem b).key, e, r', h', f, ⟨hlt, ?_, ?_⟩, x, b, hi, hxn, by rw [f.head]; exact r.ne_head x hx,
      lt_of_lt_of_le (r.lt_brk x hx) f.brk, by rw [hmem]; exact hc.1, h1 b hbn ?_, f.key b (r.lt_brk b hbn)⟩
    · rw [(h _ _).2 ⟨b, hbn, rfl, rfl⟩]; rfl
    · intro z hz hs
      obtain ⟨c, hcS, hkc⟩ := hS z hz hs
      rcases List.mem_cons.1 hcS with rfl | hcS
      · exact .inl hkc.symm
      · right; rw [← hkc]; exact (List.pairwise_cons.1 hso.2.1.2).1 c hcS
    · intro he; rw [he, LawfulOrdered.irrefl] at hlt; cases hlt

theorem next_gone {hist : List (Op K V)} {w : World K V} {nodes : List Addr} (r : Rep w nodes) (h : Abs hist w nodes)
    {it : Iter} {q : Option K} (g : Gone w nodes it q) :
    match q with
    | none => ∃ it', Skl.next w it = .ret (it', none)
    | some k => ∃ it' v, Skl.next w it = .ret (it', some (k, v)) ∧ lookup hist k = some v ∧ PosOk w nodes it' (.at k) := by
  obtain ⟨x, y, hi, hx, hh, hb, hn, hq⟩ := g
  cases q with
  | none =>
    subst hq
    exact ⟨⟨some w.skl.tail⟩, by simp only [Skl.next, hi, hn, if_true]⟩
  | some k =>
    refine ⟨⟨some y⟩, _, ?_, (h k _).2 ⟨y, hq.1, hq.2, rfl⟩, y, hq.1, rfl, hq.2⟩
    simp only [Skl.next, hi, hn, if_neg (r.ne_tail y hq.1), hq.2]

end
end Verif.Skl
