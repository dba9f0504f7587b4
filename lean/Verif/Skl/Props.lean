import Verif.Skl.Refine
import Verif.Skl.Mix
import Verif.Skl.Height
/-!
# Properties C01-C08: the skip-list map `sklmapx`
-/
set_option linter.unusedSectionVars false
namespace Verif.Skl
open Verif.Go Verif.MapSpec

section
variable {K V : Type} [GoOrdered K] [LawfulOrdered K] [DecidableEq K] [Inhabited K] [Inhabited V]

/-- **C01.** After every history, with every seed: no call panics or hangs, `Get` returns what the
history says, `Del` says whether the key was present, `Len` is the number of present keys. -/
theorem C01_finite_map (seed : BitVec 64) (hist : List (Op K V)) :
    ∃ w, run (Skl.new seed) hist = .ret w ∧
      (∀ k, Skl.get w k = .ret (lookup hist k)) ∧
      (∀ k, ∃ w', Skl.del w k = .ret (w', (lookup hist k).isSome)) ∧
      (∀ k v, ∃ w', Skl.set w k v = .ret w') ∧
      ∃ ks, PresentKeys hist ks ∧ Verif.Skl.len w = ks.length := by
  obtain ⟨w, nodes, e, r, h⟩ := run_rep seed hist
  refine ⟨w, e, get_spec r h, ?_, ?_, _, keys_present r h, ?_⟩
  · intro k
    obtain ⟨w', _, e', _⟩ := del_step r h k
    exact ⟨w', e'⟩
  · intro k v
    obtain ⟨w', _, e', _⟩ := set_step r h k v
    exact ⟨w', e'⟩
  · simp [Verif.Skl.len, r.len]

/-- The number of present keys is determined by the history, so C01 fixes `Len`. -/
theorem C01_len_unique (hist : List (Op K V)) (ks ks' : List K)
    (h : PresentKeys hist ks) (h' : PresentKeys hist ks') : ks.length = ks'.length :=
  ((List.perm_ext_iff_of_nodup h.1 h'.1).2 (fun k => by rw [h.2, h'.2])).length_eq

example : lookup [Op.set 1 "a", .set 2 "b", .set 1 "c", .del (2 : Int)] 1 = some "c" := by decide
example : lookup [Op.set 1 "a", .set 2 "b", .set 1 "c", .del (2 : Int)] 2 = none := by decide

/-- **C02.** `Keys` is strictly ascending and complete, `Values` and `ToMap` agree with it, and a
fresh iterator yields exactly these entries and then `ok = false`. -/
theorem C02_enumeration (seed : BitVec 64) (hist : List (Op K V)) :
    ∃ w ks vs, run (Skl.new seed) hist = .ret w ∧
      Skl.keys w = .ret ks ∧ ks.Pairwise (fun a b => GoOrdered.lt a b = true) ∧
      (∀ k, k ∈ ks ↔ (lookup hist k).isSome) ∧
      Skl.values w = .ret vs ∧ vs.map some = ks.map (lookup hist) ∧
      (∃ m, Skl.toMap w = .ret m ∧ ∀ k, m k = lookup hist k) ∧
      ∃ it', nexts w (ks.length + 1) Skl.iterator = .ret (it', (ks.zip vs).map some ++ [none]) := by
  obtain ⟨w, nodes, e, r, h⟩ := run_rep seed hist
  refine ⟨w, nodes.map (fun a => (w.heap.mem a).key), nodes.map (fun a => (w.heap.mem a).value), e,
    ?_, ?_, (keys_present r h).2, ?_, ?_, ?_, ?_⟩
  · simp [Skl.keys, r.entries, kvs]
  · rw [List.pairwise_map]; exact r.sorted
  · simp [Skl.values, r.entries, kvs]
  · rw [List.map_map, List.map_map]
    refine List.map_congr_left (fun a ha => ?_)
    exact ((h _ _).2 ⟨a, ha, rfl, rfl⟩).symm
  · refine ⟨_, by rw [Skl.toMap, r.entries]; rfl, ?_⟩
    intro k
    -- assigning distinct keys one after the other
    have hfold : ∀ (l : List Addr) (m : K → Option V),
        (∀ a ∈ l, ∀ b ∈ l, (w.heap.mem a).key = (w.heap.mem b).key → a = b) →
        (kvs w l).foldl (fun (m : K → Option V) (kv : K × V) k =>
            if GoOrdered.eq k kv.1 then some kv.2 else m k) m k =
          match l.find? (fun a => decide ((w.heap.mem a).key = k)) with
          | some a => some (w.heap.mem a).value
          | none => m k := by
      intro l
      induction l with
      | nil => intro m _; rfl
      | cons a l ih =>
        intro m hinj
        have ih' := ih (fun k' => if GoOrdered.eq k' (w.heap.mem a).key then some (w.heap.mem a).value else m k')
          (fun x hx y hy => hinj x (by simp [hx]) y (by simp [hy]))
        simp only [kvs, List.map_cons, List.foldl_cons] at ih' ⊢
        rw [ih']
        by_cases hk : (w.heap.mem a).key = k
        · have : GoOrdered.eq k (w.heap.mem a).key = true := (LawfulOrdered.eq_iff _ _).2 hk.symm
          rw [List.find?_cons_of_pos (by simp [hk])]
          simp only [this, if_true]
          split
          · rename_i b hb
            have hbk := List.find?_some hb
            have hbm := List.mem_of_find?_eq_some hb
            have : b = a := hinj b (by simp [hbm]) a (by simp) (by simp at hbk; rw [hbk, hk])
            rw [this]
          · rfl
        · have : GoOrdered.eq k (w.heap.mem a).key = false := by
            cases hh : GoOrdered.eq k (w.heap.mem a).key
            · rfl
            · exact absurd ((LawfulOrdered.eq_iff _ _).1 hh).symm hk
          rw [List.find?_cons_of_neg (by simp [hk])]
          simp only [this, Bool.false_eq_true, if_false]
    simp only
    rw [hfold nodes _ (fun a ha b hb hk => r.key_inj ha hb hk)]
    cases hf : nodes.find? (fun a => decide ((w.heap.mem a).key = k)) with
    | none =>
      simp only [List.find?_eq_none, decide_eq_true_eq] at hf
      exact ((h.none_iff k).2 hf).symm
    | some a =>
      have := List.find?_some hf
      simp at this
      exact ((h k _).2 ⟨a, List.mem_of_find?_eq_some hf, this, rfl⟩).symm
  · refine ⟨⟨some w.skl.tail⟩, ?_⟩
    rw [List.length_map, nexts_spec nodes w.skl.head Skl.iterator r.chain0 r.ne_tail (.inr ⟨rfl, rfl⟩),
      List.zip_map']
    rfl

/-- **C03.** `Seek` on a present key returns its entry and the following `Next` calls yield exactly
the entries with larger keys in ascending order, then `ok = false`; on an absent key `ok = false`,
and the iterator restarts at the smallest key, as after `Rewind`. -/
theorem C03_seek (seed : BitVec 64) (hist : List (Op K V)) (it : Iter) (k : K) :
    ∃ w, run (Skl.new seed) hist = .ret w ∧
      (∀ v, lookup hist k = some v → ∃ (it' it'' : Iter) (l : List (K × V)), Skl.seek w it k = .ret (it', some (k, v)) ∧
        nexts w (l.length + 1) it' = .ret (it'', l.map some ++ [none]) ∧
        l.Pairwise (fun a b => GoOrdered.lt a.1 b.1 = true) ∧
        ∀ k' v', (k', v') ∈ l ↔ GoOrdered.lt k k' = true ∧ lookup hist k' = some v') ∧
      (lookup hist k = none → Skl.seek w it k = .ret (Skl.iterator, none)) ∧
      Skl.rewind it = Skl.iterator := by
  obtain ⟨w, nodes, e, r, h⟩ := run_rep seed hist
  refine ⟨w, e, ?_, ?_, rfl⟩
  · intro v hv
    rcases seek_spec it r h k with ⟨x, hx, hkx, v', hv', hs⟩ | ⟨hn, _⟩
    · rw [hv] at hv'; cases hv'
      obtain ⟨P, S, hn⟩ := List.append_of_mem hx
      have hc := r.chain0
      rw [hn] at hc
      have hsub : ∀ b ∈ S, b ∈ nodes := fun b hb => by rw [hn]; simp [hb]
      have hso := r.sorted
      rw [hn, List.pairwise_append, List.pairwise_cons] at hso
      have hlen : (kvs w S).length = S.length := by simp [kvs]
      have hnx := nexts_spec S x ⟨some x⟩ (Chain.from_mem hc)
        (fun b hb => r.ne_tail b (hsub b hb)) (.inl rfl)
      refine ⟨_, _, kvs w S, hs, by rw [hlen]; exact hnx, ?_, ?_⟩
      · rw [kvs, List.pairwise_map]; exact hso.2.1.2
      · intro k' v'
        simp only [kvs, List.mem_map, Prod.mk.injEq]
        constructor
        · rintro ⟨a, ha, hk, hva⟩
          refine ⟨?_, (h k' v').2 ⟨a, hsub a ha, hk, hva⟩⟩
          rw [← hkx, ← hk]; exact hso.2.1.1 a ha
        · rintro ⟨hlt, hl⟩
          obtain ⟨a, ha, hk, hva⟩ := (h k' v').1 hl
          refine ⟨a, ?_, hk, hva⟩
          rw [hn] at ha
          simp only [List.mem_append, List.mem_cons] at ha
          rcases ha with ha | rfl | ha
          · have := hso.2.2 a ha x (by simp)
            rw [hk, hkx, lt_asymm hlt] at this; cases this
          · rw [← hk, hkx, LawfulOrdered.irrefl] at hlt; cases hlt
          · exact ha
    · rw [hv] at hn; cases hn
  · intro hn
    rcases seek_spec it r h k with ⟨x, hx, hkx, v', hv', _⟩ | ⟨_, hs⟩
    · rw [hn] at hv'; cases hv'
    · exact hs

/-- **C04 is false**: on every reachable map, once `Next` has returned `ok = false` the next call
panics. The witness is concrete for every history; nothing further is assumed. -/
theorem C04_refuted (seed : BitVec 64) (hist : List (Op K V)) :
    ∃ w it' n, run (Skl.new seed) hist = .ret w ∧
      (∃ l, nexts w n Skl.iterator = .ret (it', l ++ [none])) ∧ Skl.next w it' = .panic := by
  obtain ⟨w, nodes, e, r, h⟩ := run_rep seed hist
  refine ⟨w, _, nodes.length + 1, e,
    ⟨_, nexts_spec nodes w.skl.head Skl.iterator r.chain0 r.ne_tail (.inr ⟨rfl, rfl⟩)⟩, ?_⟩
  simp [Skl.next, r.tail_next]

/-- **C04, what does hold**: an exhausted iterator is usable again after `Rewind`; it then yields the
whole map. (The full claim, that further `Next` calls return `ok = false`, is refuted above.) -/
theorem C04_partial (seed : BitVec 64) (hist : List (Op K V)) (it : Iter) :
    ∃ w ks vs it', run (Skl.new seed) hist = .ret w ∧ Skl.keys w = .ret ks ∧ Skl.values w = .ret vs ∧
      nexts w (ks.length + 1) (Skl.rewind it) = .ret (it', (ks.zip vs).map some ++ [none]) := by
  obtain ⟨w, ks, vs, e, hk, _, _, hv, _, _, it', hn⟩ := C02_enumeration seed hist
  exact ⟨w, ks, vs, it', e, hk, hv, hn⟩

/-- **C05.** In every configuration reached by any interleaving of `Set`, `Del` (of keys other than
the iterator's), `Next`, `Seek` and `Rewind`, `Next` returns the smallest key now present after the
iterator's key, with its current value, or `ok = false` if there is none. -/
theorem C05_iteration_under_modification {seed : BitVec 64} {hist : List (Op K V)} {w : World K V}
    {p : Pos K} {it : Iter} (hr : Reach seed hist w p it) (hd : p ≠ .done) :
    ∃ it' res, Skl.next w it = .ret (it', res) ∧ IsNext hist p res := by
  obtain ⟨nodes, r, h, hp⟩ := hr.inv
  obtain ⟨it', res, e, hi, _⟩ := next_spec r h hp hd
  exact ⟨it', res, e, hi⟩

/-- The calls of C05's interleavings never panic or hang, so every interleaving is reachable. -/
theorem C05_calls_return {seed : BitVec 64} {hist : List (Op K V)} {w : World K V}
    {p : Pos K} {it : Iter} (hr : Reach seed hist w p it) (k : K) (v : V) :
    (∃ w', Skl.set w k v = .ret w') ∧ (∃ w' b, Skl.del w k = .ret (w', b)) ∧
      (∃ it' res, Skl.seek w it k = .ret (it', res)) := by
  obtain ⟨nodes, r, h, hp⟩ := hr.inv
  obtain ⟨w', _, e, _⟩ := set_step r h k v
  obtain ⟨w'', _, e', _⟩ := del_step r h k
  refine ⟨⟨w', e⟩, ⟨w'', _, e'⟩, ?_⟩
  rcases seek_spec it r h k with ⟨x, _, _, v, _, hs⟩ | ⟨_, hs⟩
  · exact ⟨_, _, hs⟩
  · exact ⟨_, _, hs⟩

/-- `IsNext` determines the result of `Next`. -/
theorem C05_isNext_unique {hist : List (Op K V)} {p : Pos K} {r r' : Option (K × V)}
    (h : IsNext hist p r) (h' : IsNext hist p r') : r = r' := by
  cases r with
  | none =>
    cases r' with
    | none => rfl
    | some kv =>
      have := h kv.1 h'.1
      rw [h'.2.1] at this; cases this
  | some kv =>
    cases r' with
    | none =>
      have := h' kv.1 h.1
      rw [h.2.1] at this; cases this
    | some kv' =>
      obtain ⟨k, v⟩ := kv
      obtain ⟨k', v'⟩ := kv'
      have e : k = k' := by
        rcases h.2.2 k' h'.1 (by rw [h'.2.1]; rfl) with e | hl
        · exact e.symm
        · rcases h'.2.2 k h.1 (by rw [h.2.1]; rfl) with e | hl'
          · exact e
          · rw [lt_asymm hl] at hl'; cases hl'
      subst e
      have := h.2.1.symm.trans h'.2.1
      cases this; rfl

/-- **C06, what does hold**: over a totally ordered key type, setting another key never changes what
`Get` returns. (The full claim, for every `constraints.Ordered` type, is refuted below.) -/
theorem C06_partial (seed : BitVec 64) (hist : List (Op K V)) (k1 k2 : K) (v : V) (hne : k1 ≠ k2) :
    ∃ w w', run (Skl.new seed) hist = .ret w ∧ Skl.set w k2 v = .ret w' ∧
      Skl.get w' k1 = Skl.get w k1 := by
  obtain ⟨w, nodes, e, r, h⟩ := run_rep seed hist
  obtain ⟨w', n', e', r', h', _⟩ := set_step r h k2 v
  refine ⟨w, w', e, e', ?_⟩
  rw [get_spec r h, get_spec r' h', lookup_set, if_neg hne]

/-- **C08.** `String` is the present entries in ascending key order, each formatted, separated by
single spaces, between `sklmapx[` and `]`. -/
theorem C08_string (fmtKV : K → V → String) (seed : BitVec 64) (hist : List (Op K V)) :
    ∃ (w : World K V) (l : List (K × V)), run (Skl.new seed) hist = .ret w ∧
      l.Pairwise (fun a b => GoOrdered.lt a.1 b.1 = true) ∧
      (∀ k v, (k, v) ∈ l ↔ lookup hist k = some v) ∧
      Skl.toStr fmtKV w =
        .ret ("sklmapx[" ++ sepBySpace (l.map fun kv => fmtKV kv.1 kv.2) ++ "]") := by
  obtain ⟨w, nodes, e, r, h⟩ := run_rep seed hist
  refine ⟨w, kvs w nodes, e, ?_, ?_, ?_⟩
  · rw [kvs, List.pairwise_map]; exact r.sorted
  · intro k v
    rw [h k v]; simp [kvs]
  · rw [Skl.toStr, r.entries]
    simp only [Outcome.map_ret, Outcome.ret_inj]
    have tail : ∀ (l : List (K × V)) (buf : String) (i : Nat), 0 < i →
        (l.foldl (fun (p : String × Nat) (kv : K × V) =>
          ((if p.2 > 0 then p.1 ++ " " else p.1) ++ fmtKV kv.1 kv.2, p.2 + 1)) (buf, i)).1 =
        (l.map fun kv => fmtKV kv.1 kv.2).foldl (fun r s => r ++ " " ++ s) buf := by
      intro l
      induction l with
      | nil => intros; rfl
      | cons kv l ih =>
        intro buf i hi
        simp only [List.foldl_cons, List.map_cons]
        rw [ih _ _ (by omega)]
        simp [hi]
    cases hk : kvs w nodes with
    | nil => rfl
    | cons kv l =>
      simp only [List.foldl_cons, List.map_cons]
      rw [tail _ _ _ (by omega)]
      simp only [gt_iff_lt, Nat.lt_irrefl, if_false]
      have hx : ∀ (l : List String) (a b : String),
          l.foldl (fun r s => r ++ " " ++ s) (a ++ b) = a ++ l.foldl (fun r s => r ++ " " ++ s) b := by
        intro l
        induction l with
        | nil => intros; rfl
        | cons x l ih =>
          intro a b
          simp only [List.foldl_cons]
          rw [String.append_assoc, String.append_assoc, ih, String.append_assoc]
      rw [hx]
      have hj : ∀ (l : List String) (a : String),
          l.foldl (fun r s => r ++ " " ++ s) a = sepBySpace (a :: l) := by
        intro l
        induction l with
        | nil => intros; rfl
        | cons x l ih =>
          intro a
          simp only [List.foldl_cons]
          rw [hx, ih]
          rfl
      rw [hj]

end

/-- A NaN key is inserted in front of everything and hides it. -/
def nanHist : List (Op FloatKey Int) := [.set (.num 1) 10]

/-- **C06 is false** for floats: after `Set(1, 10)`, `Set(NaN, 20)` makes `Get(1)` report absent. -/
theorem C06_refuted :
    ∃ w w', run (Skl.new 0#64) nanHist = .ret w ∧ Skl.get w (.num 1) = .ret (some 10) ∧
      Skl.set w .nan 20 = .ret w' ∧ Skl.get w' (.num 1) = .ret none := by
  refine ⟨_, _, rfl, ?_, rfl, ?_⟩ <;> decide

/-- **C07.** Heights drawn are between 1 and 16 for every seed; the mixing function is a bijection;
one generator repeats no state within `2^64` draws; the seeds handed out by `root_next` to maps
created one after the other are pairwise distinct until `2^64` have been handed out. -/
theorem C07_generator :
    (∀ seed, 1 ≤ (randHeight seed).1 ∧ (randHeight seed).1 ≤ 16) ∧
    Function.Bijective mix ∧
    (∀ s n m, n < 2 ^ 64 → m < 2 ^ 64 → stateAfter s n = stateAfter s m → n = m) ∧
    (∀ root n m, n < 2 ^ 64 → m < 2 ^ 64 →
      (rootNext (stateAfter root n)).2 = (rootNext (stateAfter root m)).2 → n = m) := by
  refine ⟨randHeight_range, mix_bij, stateAfter_inj, ?_⟩
  intro root n m hn hm h
  have h := mix_inj _ _ h
  have h := (BitVec.add_left_inj incrementConstant).1 h
  exact stateAfter_inj root n m hn hm h

/-- **C07, a coin is tossed**: half of all seeds draw a height of one. -/
theorem C07_half : Nat.card {seed : BitVec 64 // (randHeight seed).1 = 1} = 2 ^ 63 := card_height_one

/-- The root generator advances as the map generators do. -/
theorem C07_root_state (root : BitVec 64) (n : Nat) :
    stateAfter root (n + 1) = (rootNext (stateAfter root n)).1 := rfl

example : (randHeight 18#64).1 = 6 := by decide

/-- A configuration of C05 with a key inserted and another deleted while the iterator stands on 2. -/
example : ∃ w it, Reach (K := Int) (V := Int) 0#64
    [.set 2 20, .set 5 50, .set 3 30, .del 5] w (.at 2) it := by
  obtain ⟨w1, e1⟩ := (C05_calls_return (Reach.init (K := Int) (V := Int) (s := 0#64)) 2 20).1
  have r1 := Reach.init.set e1
  obtain ⟨w2, e2⟩ := (C05_calls_return r1 5 50).1
  have r2 := r1.set e2
  obtain ⟨it, res, e3, h3⟩ := C05_iteration_under_modification r2 (by simp)
  have : res = some (2, 20) := by
    refine C05_isNext_unique h3 ⟨trivial, by decide, ?_⟩
    intro k' _ h
    by_cases h2 : k' = 2
    · exact .inl h2
    · by_cases h5 : k' = 5
      · right; subst h5; decide
      · simp [lookup, h2, h5] at h
  subst this
  have r3 := r2.next (by simp) e3
  obtain ⟨w4, e4⟩ := (C05_calls_return r3 3 30).1
  have r4 := r3.set e4
  obtain ⟨w5, b, e5⟩ := (C05_calls_return r4 5 0).2.1
  exact ⟨w5, it, r4.del (by simp) e5⟩

end Verif.Skl
