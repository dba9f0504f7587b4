import Verif.Skl.Lemmas
import Verif.Skl.Spec
/-!
# The skip list refines the map specification

Executions of update histories, and the reachable configurations of a map with one iterator.
-/
set_option linter.unusedSectionVars false
namespace Verif.Skl
open Verif.Go Verif.MapSpec

section
variable {K V : Type} [GoOrdered K] [LawfulOrdered K] [DecidableEq K] [Inhabited K] [Inhabited V]

/-- Run one update. -/
def step (w : World K V) : Op K V → Outcome (World K V)
  | .set k v => Skl.set w k v
  | .del k => (Skl.del w k).map Prod.fst
  | .clear seed => .ret (Skl.clear w seed)

/-- Run a history, oldest update first. -/
def run (w : World K V) : List (Op K V) → Outcome (World K V)
  | [] => .ret w
  | op :: ops => (step w op).bind fun w' => run w' ops

/-- The nodes hold what the history says. -/
def Abs (hist : List (Op K V)) (w : World K V) (nodes : List Addr) : Prop :=
  ∀ k v, lookup hist k = some v ↔ ∃ a ∈ nodes, (w.heap.mem a).key = k ∧ (w.heap.mem a).value = v

theorem lookup_set (h : List (Op K V)) (k k' : K) (v : V) :
    lookup (h ++ [.set k v]) k' = if k' = k then some v else lookup h k' := by
  simp [lookup, List.foldl_append]

theorem lookup_del (h : List (Op K V)) (k k' : K) :
    lookup (h ++ [.del k]) k' = if k' = k then none else lookup h k' := by
  simp [lookup, List.foldl_append]

theorem lookup_clear (h : List (Op K V)) (s : BitVec 64) (k' : K) :
    lookup (h ++ [.clear s]) k' = none := by
  simp [lookup, List.foldl_append]

theorem Abs.none_iff {hist : List (Op K V)} {w : World K V} {nodes : List Addr} (h : Abs hist w nodes)
    (k : K) : lookup hist k = none ↔ ∀ a ∈ nodes, (w.heap.mem a).key ≠ k := by
  constructor
  · intro hn a ha hk
    have := (h k _).2 ⟨a, ha, hk, rfl⟩
    rw [hn] at this; cases this
  · intro hk
    cases hl : lookup hist k with
    | none => rfl
    | some v =>
      obtain ⟨a, ha, hka, _⟩ := (h k v).1 hl
      exact absurd hka (hk a ha)

theorem set_step {hist : List (Op K V)} {w : World K V} {nodes : List Addr} (r : Rep w nodes)
    (h : Abs hist w nodes) (k : K) (v : V) :
    ∃ w' nodes', Skl.set w k v = .ret w' ∧ Rep w' nodes' ∧ Abs (hist ++ [.set k v]) w' nodes' ∧
      Frame w w' ∧ (∀ a ∈ nodes, a ∈ nodes') ∧ ∀ a ∈ nodes', a ∈ nodes ∨ a = w.heap.brk := by
  cases hl : lookup hist k with
  | none =>
    have hk := (h.none_iff k).1 hl
    obtain ⟨w', e, f, r', hkk, hvv, hv⟩ := r.insert_new k v hk
    have hmem : ∀ a, a ∈ before w nodes k ++ w.heap.brk :: after w nodes k ↔ a = w.heap.brk ∨ a ∈ nodes := by
      intro a
      have hs := r.split k
      constructor
      · simp only [List.mem_append, List.mem_cons]
        rintro (h | h | h)
        · right; rw [hs]; simp [h]
        · exact .inl h
        · right; rw [hs]; simp [h]
      · rintro (h | h)
        · simp [h]
        · rw [hs] at h; simp only [List.mem_append, List.mem_cons] at h ⊢; tauto
    refine ⟨w', _, e, r', ?_, f, fun a ha => (hmem a).2 (.inr ha), fun a ha => ((hmem a).1 ha).symm⟩
    intro k' v'
    rw [lookup_set]
    split
    · rename_i hkk'
      subst hkk'
      constructor
      · intro e; cases e
        exact ⟨w.heap.brk, (hmem _).2 (.inl rfl), hkk, hvv⟩
      · rintro ⟨a, ha, hka, hva⟩
        rcases (hmem a).1 ha with rfl | ha
        · rw [hvv] at hva; rw [hva]
        · rw [f.key a (r.lt_brk a ha)] at hka
          exact absurd hka (hk a ha)
    · rename_i hne
      rw [h k' v']
      constructor
      · rintro ⟨a, ha, hka, hva⟩
        refine ⟨a, (hmem a).2 (.inr ha), ?_, ?_⟩
        · rw [f.key a (r.lt_brk a ha), hka]
        · rw [hv a (r.lt_brk a ha), hva]
      · rintro ⟨a, ha, hka, hva⟩
        rcases (hmem a).1 ha with rfl | ha
        · rw [hkk] at hka; exact absurd hka.symm hne
        · rw [f.key a (r.lt_brk a ha)] at hka
          rw [hv a (r.lt_brk a ha)] at hva
          exact ⟨a, ha, hka, hva⟩
  | some v0 =>
    obtain ⟨x, hx, hkx, _⟩ := (h k v0).1 hl
    obtain ⟨w', e, f, r', hb, hvx, hv⟩ := r.insert_old k v hx hkx
    refine ⟨w', nodes, e, r', ?_, f, fun a ha => ha, fun a ha => .inl ha⟩
    intro k' v'
    rw [lookup_set]
    split
    · rename_i hkk'
      subst hkk'
      constructor
      · intro e; cases e
        exact ⟨x, hx, by rw [f.key x (r.lt_brk x hx), hkx], hvx⟩
      · rintro ⟨a, ha, hka, hva⟩
        rw [f.key a (r.lt_brk a ha)] at hka
        have : a = x := r.key_inj ha hx (hka.trans hkx.symm)
        subst this
        rw [hvx] at hva; rw [hva]
    · rename_i hne
      rw [h k' v']
      constructor
      · rintro ⟨a, ha, hka, hva⟩
        refine ⟨a, ha, by rw [f.key a (r.lt_brk a ha), hka], ?_⟩
        rw [hv a (fun e => hne (by rw [← hka, e, hkx])), hva]
      · rintro ⟨a, ha, hka, hva⟩
        rw [f.key a (r.lt_brk a ha)] at hka
        rw [hv a (fun e => hne (by rw [← hka, e, hkx]))] at hva
        exact ⟨a, ha, hka, hva⟩

theorem del_step {hist : List (Op K V)} {w : World K V} {nodes : List Addr} (r : Rep w nodes)
    (h : Abs hist w nodes) (k : K) :
    ∃ w' nodes', Skl.del w k = .ret (w', (lookup hist k).isSome) ∧ Rep w' nodes' ∧
      Abs (hist ++ [.del k]) w' nodes' ∧ Frame w w' ∧
      (∀ a ∈ nodes, (w.heap.mem a).key ≠ k → a ∈ nodes') ∧
      ∀ a ∈ nodes', a ∈ nodes ∧ (w.heap.mem a).key ≠ k := by
  cases hl : lookup hist k with
  | none =>
    have hk := (h.none_iff k).1 hl
    refine ⟨w, nodes, r.delete_none k hk, r, ?_, ⟨rfl, rfl, Nat.le_refl _, fun _ _ => rfl⟩, fun a ha _ => ha,
      fun a ha => ⟨ha, hk a ha⟩⟩
    intro k' v'
    rw [lookup_del]
    split
    · rename_i e; subst e
      rw [← hl, h k' v']
    · exact h k' v'
  | some v0 =>
    obtain ⟨x, hx, hkx, _⟩ := (h k v0).1 hl
    obtain ⟨w', e, f, hb, ⟨A, B, hn, r'⟩, hkv⟩ := r.delete_some k hx hkx
    have hm : ∀ a, a ∈ A ++ B ↔ a ∈ nodes ∧ (w.heap.mem a).key ≠ k := by
      intro a
      have hnd := r.nodup
      rw [hn] at hnd
      have hxn : x ∉ A ++ B := by
        have := (List.nodup_middle.1 hnd)
        exact (List.nodup_cons.1 this).1
      constructor
      · intro ha
        have han : a ∈ nodes := by rw [hn]; simp at ha ⊢; tauto
        refine ⟨han, fun hk => hxn ?_⟩
        rwa [← r.key_inj han hx (hk.trans hkx.symm)]
      · rintro ⟨ha, hk⟩
        rw [hn] at ha
        simp only [List.mem_append, List.mem_cons] at ha ⊢
        rcases ha with h | rfl | h
        · exact .inl h
        · exact absurd hkx hk
        · exact .inr h
    refine ⟨w', A ++ B, e, r', ?_, f, fun a ha hk => (hm a).2 ⟨ha, hk⟩, fun a ha => (hm a).1 ha⟩
    intro k' v'
    rw [lookup_del]
    split
    · rename_i e; subst e
      constructor
      · intro e; cases e
      · rintro ⟨a, ha, hka, _⟩
        rw [(hkv a).1] at hka
        exact absurd hka ((hm a).1 ha).2
    · rename_i hne
      rw [h k' v']
      constructor
      · rintro ⟨a, ha, hka, hva⟩
        refine ⟨a, (hm a).2 ⟨ha, ?_⟩, by rw [(hkv a).1, hka], by rw [(hkv a).2, hva]⟩
        rw [hka]; exact hne
      · rintro ⟨a, ha, hka, hva⟩
        rw [(hkv a).1] at hka
        rw [(hkv a).2] at hva
        exact ⟨a, ((hm a).1 ha).1, hka, hva⟩

theorem clear_step {hist : List (Op K V)} (w : World K V) (s : BitVec 64) :
    Rep (Skl.clear w s) [] ∧ Abs (hist ++ [.clear s]) (Skl.clear w s) [] := by
  refine ⟨Rep.newIn _ _, ?_⟩
  intro k v
  simp [lookup_clear]

theorem new_rep (s : BitVec 64) : Rep (Skl.new s : World K V) [] ∧ Abs [] (Skl.new s : World K V) [] :=
  ⟨Rep.newIn _ _, by intro k v; simp [lookup]⟩

theorem run_append (w : World K V) (xs ys : List (Op K V)) :
    run w (xs ++ ys) = (run w xs).bind fun w' => run w' ys := by
  induction xs generalizing w with
  | nil => rfl
  | cons x xs ih =>
    simp only [List.cons_append, run]
    cases h : step w x <;> simp [ih]

/-- Every history runs to the end and leaves a well-formed list holding what the history says. -/
theorem run_rep (s : BitVec 64) (hist : List (Op K V)) :
    ∃ w nodes, run (Skl.new s) hist = .ret w ∧ Rep w nodes ∧ Abs hist w nodes := by
  induction hist using List.reverseRecOn with
  | nil => exact ⟨_, [], rfl, new_rep s⟩
  | append_singleton hist op ih =>
    obtain ⟨w, nodes, e, r, h⟩ := ih
    rw [run_append, e]
    simp only [Outcome.bind_ret, run]
    cases op with
    | set k v =>
      obtain ⟨w', n', e', r', h', _⟩ := set_step r h k v
      exact ⟨w', n', by simp [step, e'], r', h'⟩
    | del k =>
      obtain ⟨w', n', e', r', h', _⟩ := del_step r h k
      exact ⟨w', n', by simp [step, e'], r', h'⟩
    | clear s' =>
      exact ⟨_, [], by simp [step], clear_step w s'⟩

theorem get_spec {hist : List (Op K V)} {w : World K V} {nodes : List Addr} (r : Rep w nodes)
    (h : Abs hist w nodes) (k : K) : Skl.get w k = .ret (lookup hist k) := by
  obtain ⟨ctx, _, ⟨x, S, hn, hx, hs⟩ | ⟨hk, hs⟩⟩ := r.search k
  · have : lookup hist k = some (w.heap.mem x).value := (h k _).2 ⟨x, by rw [hn]; simp, hx, rfl⟩
    simp [Skl.get, hs, this]
  · have : lookup hist k = none := (h.none_iff k).2 hk
    simp [Skl.get, hs, this]

theorem keys_present {hist : List (Op K V)} {w : World K V} {nodes : List Addr} (r : Rep w nodes)
    (h : Abs hist w nodes) : PresentKeys hist (nodes.map fun a => (w.heap.mem a).key) := by
  constructor
  · rw [List.nodup_map_iff_inj_on r.nodup]
    intro a ha b hb e
    exact r.key_inj ha hb e
  · intro k
    cases hl : lookup hist k with
    | none =>
      have := (h.none_iff k).1 hl
      simp; exact this
    | some v =>
      obtain ⟨a, ha, hk, _⟩ := (h k v).1 hl
      simp; exact ⟨a, ha, hk⟩

/-! ## Several `Next` calls in a row -/

/-- `n` calls of `Next`, with their results. -/
def nexts (w : World K V) : Nat → Iter → Outcome (Iter × List (Option (K × V)))
  | 0, it => .ret (it, [])
  | n + 1, it =>
    (Skl.next w it).bind fun (it', r) => (nexts w n it').map fun (it'', rs) => (it'', r :: rs)

omit [LawfulOrdered K] [DecidableEq K] in
theorem next_cons {w : World K V} {a b : Addr} {l : List Addr} {it : Iter}
    (hc : Chain (fun a => (w.heap.mem a).next 0) w.skl.tail a (b :: l)) (hb : b ≠ w.skl.tail)
    (hit : it.node = some a ∨ (it.node = none ∧ a = w.skl.head)) :
    Skl.next w it = .ret (⟨some b⟩, some ((w.heap.mem b).key, (w.heap.mem b).value)) := by
  have h1 : (w.heap.mem a).next 0 = some b := hc.1
  rcases hit with h | ⟨h, rfl⟩ <;> simp [Skl.next, h, h1, hb]

omit [LawfulOrdered K] [DecidableEq K] in
theorem next_nil {w : World K V} {a : Addr} {it : Iter}
    (hc : Chain (fun a => (w.heap.mem a).next 0) w.skl.tail a [])
    (hit : it.node = some a ∨ (it.node = none ∧ a = w.skl.head)) :
    Skl.next w it = .ret (⟨some w.skl.tail⟩, none) := by
  have h1 : (w.heap.mem a).next 0 = some w.skl.tail := hc
  rcases hit with h | ⟨h, rfl⟩ <;> simp [Skl.next, h, h1]

omit [LawfulOrdered K] [DecidableEq K] in
theorem nexts_spec {w : World K V} : ∀ (l : List Addr) (a : Addr) (it : Iter),
    Chain (fun a => (w.heap.mem a).next 0) w.skl.tail a l → (∀ b ∈ l, b ≠ w.skl.tail) →
    (it.node = some a ∨ (it.node = none ∧ a = w.skl.head)) →
    nexts w (l.length + 1) it = .ret (⟨some w.skl.tail⟩, (kvs w l).map some ++ [none])
  | [], a, it, hc, _, hit => by
    simp [nexts, next_nil hc hit, kvs]
  | b :: l, a, it, hc, ht, hit => by
    have ih := nexts_spec l b ⟨some b⟩ hc.2 (fun c h => ht c (by simp [h])) (.inl rfl)
    rw [List.length_cons, nexts, next_cons hc (ht b (by simp)) hit]
    simp [ih, kvs]

/-- The chain from a node on. -/
theorem Chain.from_mem {nx : Addr → Option Addr} {t x : Addr} {S : List Addr} :
    ∀ {P : List Addr} {a : Addr}, Chain nx t a (P ++ x :: S) → Chain nx t x S
  | [], _, h => h.2
  | _ :: _, _, h => Chain.from_mem h.2

/-! ## A map with an iterator -/

/-- Where the iterator stands, told by what it last returned: nothing yet, a key, or `ok = false`. -/
inductive Pos (K : Type) where
  | start
  | at (k : K)
  | done

/-- Configurations a program can reach with one map and one iterator, by any interleaving of calls
that never deletes the key the iterator stands on, clears the map only when the iterator stands at
the start, and does not call `Next` after it returned `ok = false` (before `Rewind` or `Seek`). -/
inductive Reach (s : BitVec 64) : List (Op K V) → World K V → Pos K → Iter → Prop
  | init : Reach s [] (Skl.new s) .start Skl.iterator
  | set {h w p it k v w'} : Reach s h w p it → Skl.set w k v = .ret w' → Reach s (h ++ [.set k v]) w' p it
  | del {h w p it k w' b} : Reach s h w p it → p ≠ .at k → Skl.del w k = .ret (w', b) →
      Reach s (h ++ [.del k]) w' p it
  | clear {h w it s'} : Reach s h w .start it → Reach s (h ++ [.clear s']) (Skl.clear w s') .start it
  | next {h w p it it' r} : Reach s h w p it → p ≠ .done → Skl.next w it = .ret (it', r) →
      Reach s h w (match r with | none => .done | some (k, _) => .at k) it'
  | seek {h w p it it' k r} : Reach s h w p it → Skl.seek w it k = .ret (it', r) →
      Reach s h w (match r with | none => .start | some (k, _) => .at k) it'
  | rewind {h w p it} : Reach s h w p it → Reach s h w .start (Skl.rewind it)

/-- The key lies after the position. -/
def Pos.before : Pos K → K → Prop
  | .start, _ => True
  | .at k, k' => GoOrdered.lt k k' = true
  | .done, _ => False

/-- What the specification says `Next` returns at a position: the smallest present key after it. -/
def IsNext (hist : List (Op K V)) (p : Pos K) : Option (K × V) → Prop
  | some (k, v) => p.before k ∧ lookup hist k = some v ∧
      ∀ k', p.before k' → (lookup hist k').isSome → k' = k ∨ GoOrdered.lt k k' = true
  | none => ∀ k', p.before k' → lookup hist k' = none

/-- The iterator field matches the position. -/
def PosOk (w : World K V) (nodes : List Addr) (it : Iter) : Pos K → Prop
  | .start => it.node = none
  | .at k => ∃ x ∈ nodes, it.node = some x ∧ (w.heap.mem x).key = k
  | .done => True

theorem next_spec {hist : List (Op K V)} {w : World K V} {nodes : List Addr} {it : Iter} {p : Pos K}
    (r : Rep w nodes) (h : Abs hist w nodes) (hp : PosOk w nodes it p) (hd : p ≠ .done) :
    ∃ it' res, Skl.next w it = .ret (it', res) ∧ IsNext hist p res ∧
      PosOk w nodes it' (match res with | none => .done | some (k, _) => .at k) := by
  -- the nodes after the position
  obtain ⟨P, S, a, hn, hc, hit, hbef⟩ : ∃ P S a, nodes = P ++ S ∧
      Chain (fun a => (w.heap.mem a).next 0) w.skl.tail a S ∧
      (it.node = some a ∨ (it.node = none ∧ a = w.skl.head)) ∧
      (∀ b ∈ nodes, p.before (w.heap.mem b).key ↔ b ∈ S) := by
    cases p with
    | start => exact ⟨[], nodes, w.skl.head, rfl, r.chain0, .inr ⟨hp, rfl⟩, fun b hb => by simp [Pos.before, hb]⟩
    | done => exact absurd rfl hd
    | «at» k =>
      obtain ⟨x, hx, hix, hkx⟩ := hp
      obtain ⟨P, S, hn⟩ := List.append_of_mem hx
      have hc := r.chain0
      rw [hn] at hc
      have hso := r.sorted
      rw [hn, List.pairwise_append, List.pairwise_cons] at hso
      refine ⟨P ++ [x], S, x, by simp [hn], Chain.from_mem hc, .inl hix, ?_⟩
      intro b hb
      simp only [Pos.before, ← hkx]
      constructor
      · intro hlt
        rw [hn] at hb
        simp only [List.mem_append, List.mem_cons] at hb
        rcases hb with hb | rfl | hb
        · have := hso.2.2 b hb x (by simp)
          rw [lt_asymm this] at hlt; cases hlt
        · rw [LawfulOrdered.irrefl] at hlt; cases hlt
        · exact hb
      · intro hb; exact hso.2.1.1 b hb
  have hsub : ∀ b ∈ S, b ∈ nodes := fun b hb => by rw [hn]; simp [hb]
  cases S with
  | nil =>
    refine ⟨_, _, next_nil hc hit, ?_, trivial⟩
    intro k' hk'
    cases hl : lookup hist k' with
    | none => rfl
    | some v =>
      obtain ⟨b, hb, hkb, _⟩ := (h k' v).1 hl
      have := (hbef b hb).1 (by rw [hkb]; exact hk')
      simp at this
  | cons b S =>
    have hbn := hsub b (by simp)
    refine ⟨_, _, next_cons hc (r.ne_tail b hbn) hit, ⟨(hbef b hbn).2 (by simp), (h _ _).2 ⟨b, hbn, rfl, rfl⟩, ?_⟩,
      ⟨b, hbn, rfl, rfl⟩⟩
    intro k' hk' hp'
    obtain ⟨v, hv⟩ := Option.isSome_iff_exists.1 hp'
    obtain ⟨c, hc', hkc, _⟩ := (h k' v).1 hv
    have := (hbef c hc').1 (by rw [hkc]; exact hk')
    rcases List.mem_cons.1 this with rfl | hcS
    · exact .inl hkc.symm
    · right
      have hso := r.sorted
      rw [hn, List.pairwise_append, List.pairwise_cons] at hso
      rw [← hkc]; exact hso.2.1.1 c hcS

theorem seek_spec {hist : List (Op K V)} {w : World K V} {nodes : List Addr} (it : Iter)
    (r : Rep w nodes) (h : Abs hist w nodes) (k : K) :
    (∃ x ∈ nodes, (w.heap.mem x).key = k ∧ ∃ v, lookup hist k = some v ∧
      Skl.seek w it k = .ret (⟨some x⟩, some (k, v))) ∨
    (lookup hist k = none ∧ Skl.seek w it k = .ret (⟨none⟩, none)) := by
  obtain ⟨ctx, _, ⟨x, S, hn, hx, hs⟩ | ⟨hk, hs⟩⟩ := r.search k
  · left
    have hxn : x ∈ nodes := by rw [hn]; simp
    exact ⟨x, hxn, hx, _, (h k _).2 ⟨x, hxn, hx, rfl⟩, by simp [Skl.seek, hs, hx]⟩
  · right
    exact ⟨(h.none_iff k).2 hk, by simp [Skl.seek, hs]⟩

theorem Reach.inv {s : BitVec 64} {hist : List (Op K V)} {w : World K V} {p : Pos K} {it : Iter}
    (hr : Reach s hist w p it) : ∃ nodes, Rep w nodes ∧ Abs hist w nodes ∧ PosOk w nodes it p := by
  induction hr with
  | init => exact ⟨[], (new_rep s).1, (new_rep s).2, rfl⟩
  | @set h w p it k v w' _ e ih =>
    obtain ⟨nodes, r, ha, hp⟩ := ih
    obtain ⟨w'', n', e', r', h', f, hsub, -⟩ := set_step r ha k v
    rw [e] at e'; cases e'
    refine ⟨n', r', h', ?_⟩
    cases p with
    | start => exact hp
    | done => trivial
    | «at» k' =>
      obtain ⟨x, hx, hi, hk⟩ := hp
      exact ⟨x, hsub x hx, hi, by rw [f.key x (r.lt_brk x hx), hk]⟩
  | @del h w p it k w' b _ hne e ih =>
    obtain ⟨nodes, r, ha, hp⟩ := ih
    obtain ⟨w'', n', e', r', h', f, hsub, -⟩ := del_step r ha k
    rw [e] at e'; cases e'
    refine ⟨n', r', h', ?_⟩
    cases p with
    | start => exact hp
    | done => trivial
    | «at» k' =>
      obtain ⟨x, hx, hi, hk⟩ := hp
      exact ⟨x, hsub x hx (by rw [hk]; intro e; exact hne (by rw [e])), hi, by rw [f.key x (r.lt_brk x hx), hk]⟩
  | @clear h w it s' _ ih =>
    obtain ⟨nodes, _, _, hp⟩ := ih
    exact ⟨[], (clear_step (hist := h) w s').1, (clear_step w s').2, hp⟩
  | @next h w p it it' r _ hd e ih =>
    obtain ⟨nodes, r, ha, hp⟩ := ih
    obtain ⟨it'', res, e', _, hp'⟩ := next_spec r ha hp hd
    rw [e] at e'; cases e'
    exact ⟨nodes, r, ha, hp'⟩
  | @seek h w p it it' k r _ e ih =>
    obtain ⟨nodes, r, ha, hp⟩ := ih
    refine ⟨nodes, r, ha, ?_⟩
    rcases seek_spec it r ha k with ⟨x, hx, hk, v, hv, e'⟩ | ⟨_, e'⟩
    · rw [e] at e'; cases e'
      exact ⟨x, hx, rfl, hk⟩
    · rw [e] at e'; cases e'
      rfl
  | rewind _ ih =>
    obtain ⟨nodes, r, ha, _⟩ := ih
    exact ⟨nodes, r, ha, rfl⟩

end
end Verif.Skl
