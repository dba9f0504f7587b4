import Verif.SklMean.Lemmas
/-!
# Which update made which node, whatever the coins
-/
set_option linter.unusedSectionVars false
namespace Verif.SklMean
open Verif.Go Verif.Skl Verif.MapSpec

variable {K V : Type} [GoOrdered K] [LawfulOrdered K] [DecidableEq K] [Inhabited K] [Inhabited V]

/-- Key and height of the nodes. -/
def tower (w : World K V) (a : Addr) : K × Nat := ((w.heap.mem a).key, (w.heap.mem a).height)

/-- Key and height as the coins say: `p.2` is the update that made the node. -/
def made (t : Nat → Coins) (p : K × Nat) : K × Nat := (p.1, heightOf (t p.2))

theorem run_append (t : Nat → Coins) (w : World K V) (xs : List (Op K V)) (op : Op K V) :
    run t w (xs ++ [op]) = (run t w xs).bind fun w' => step (t xs.length) w' op := by
  induction xs generalizing t w with
  | nil =>
    simp only [List.nil_append, run, Outcome.bind_ret, List.length_nil]
    cases step (t 0) w op <;> rfl
  | cons x xs ih =>
    simp only [List.cons_append, run]
    cases h : step (t 0) w x with
    | ret a => simp only [Outcome.bind_ret, ih, List.length_cons]
    | panic => rfl
    | hang => rfl

/-- What holds after a history, for all coins: the nodes come from the updates `L`. -/
structure Made (seed : BitVec 64) (hist : List (Op K V)) (L : List (K × Nat)) : Prop where
  keys : ∀ x, x ∈ L.map Prod.fst ↔ (lookup hist x).isSome
  nodup : (L.map Prod.snd).Nodup
  lt : ∀ i ∈ L.map Prod.snd, i < hist.length
  rep : ∀ t, ∃ w nodes, run t (Skl.new seed) hist = .ret w ∧ Rep w nodes ∧ nodes.map (tower w) = L.map (made t)

theorem keys_of {w : World K V} {nodes : List Addr} {t : Nat → Coins} {L : List (K × Nat)} (h : nodes.map (tower w) = L.map (made t)) :
    nodes.map (fun a => (w.heap.mem a).key) = L.map Prod.fst := by
  have := congrArg (List.map Prod.fst) h
  simpa [List.map_map, Function.comp_def, tower, made] using this

theorem filter_of {w : World K V} {nodes : List Addr} {t : Nat → Coins} {L : List (K × Nat)} (h : nodes.map (tower w) = L.map (made t))
    (p : K → Bool) : (nodes.filter fun a => p (w.heap.mem a).key).map (tower w) = (L.filter fun x => p x.1).map (made t) := by
  have := congrArg (List.filter fun x : K × Nat => p x.1) h
  rw [List.filter_map, List.filter_map] at this
  simpa [Function.comp_def, tower, made] using this

theorem made_nil (seed : BitVec 64) : Made seed ([] : List (Op K V)) [] :=
  ⟨by simp [lookup], by simp, by simp, fun t => ⟨_, [], rfl, (new_rep seed).1, rfl⟩⟩

theorem made_snoc (seed : BitVec 64) {hist : List (Op K V)} {L : List (K × Nat)} (m : Made seed hist L) (op : Op K V) :
    ∃ L', Made seed (hist ++ [op]) L' := by
  have hlt : ∀ i ∈ L.map Prod.snd, i < (hist ++ [op]).length := fun i hi => by
    have := m.lt i hi
    simp; omega
  cases op with
  | clear s =>
    refine ⟨[], ?_, by simp, by simp, fun t => ?_⟩
    · intro x; rw [lookup_clear]; simp
    · obtain ⟨w, nodes, e, r, h⟩ := m.rep t
      exact ⟨_, [], by rw [run_append, e]; rfl, (clear_step (hist := hist) w s).1, rfl⟩
  | del k =>
    refine ⟨L.filter fun x => decide (x.1 ≠ k), ?_, ?_, ?_, fun t => ?_⟩
    · intro x
      rw [lookup_del]
      have := m.keys x
      by_cases hx : x = k
      · subst hx; simp
      · rw [if_neg hx, ← this]
        simp only [List.mem_map, List.mem_filter, decide_eq_true_eq, ne_eq]
        constructor
        · rintro ⟨p, ⟨hp, _⟩, rfl⟩; exact ⟨p, hp, rfl⟩
        · rintro ⟨p, hp, rfl⟩; exact ⟨p, ⟨hp, hx⟩, rfl⟩
    · exact m.nodup.sublist (List.filter_sublist.map _)
    · intro i hi
      exact hlt i ((List.filter_sublist.map _).subset hi)
    · obtain ⟨w, nodes, e, r, h⟩ := m.rep t
      rw [run_append, e]
      simp only [Outcome.bind_ret, step, Skl.del]
      by_cases hk : ∀ a ∈ nodes, (w.heap.mem a).key ≠ k
      · refine ⟨w, nodes, by rw [r.delete_none k hk]; rfl, r, ?_⟩
        rw [← filter_of h fun x => decide (x ≠ k)]
        congr 1
        exact (List.filter_eq_self.2 fun a ha => by simpa using hk a ha).symm
      · simp only [not_forall, not_not] at hk
        obtain ⟨x, hx, hkx⟩ := hk
        obtain ⟨w', e', f, hb, ⟨A, B, hn, r'⟩, hkv⟩ := r.delete_some k hx hkx
        refine ⟨w', A ++ B, by rw [e']; rfl, r', ?_⟩
        have ht : ∀ a, tower w' a = tower w a := fun a => by
          simp only [tower, (hkv a).1, delete_height e' a]
        rw [← filter_of h fun x => decide (x ≠ k)]
        have hAB : nodes.filter (fun a => decide ((w.heap.mem a).key ≠ k)) = A ++ B := by
          have hnd := r.nodup
          rw [hn] at hnd
          have hxn : x ∉ A ++ B := (List.nodup_cons.1 (List.nodup_middle.1 hnd)).1
          have hne : ∀ a ∈ A ++ B, (w.heap.mem a).key ≠ k := fun a ha hka => hxn (by
            have han : a ∈ nodes := by rw [hn]; simp at ha ⊢; tauto
            rwa [← r.key_inj han hx (hka.trans hkx.symm)])
          rw [hn, List.filter_append, List.filter_cons, if_neg (by simp [hkx]), ← List.filter_append]
          exact List.filter_eq_self.2 fun a ha => by simpa using hne a ha
        rw [hAB]
        exact List.map_congr_left fun a _ => ht a
  | set k v =>
    by_cases hin : k ∈ L.map Prod.fst
    · refine ⟨L, ?_, m.nodup, hlt, fun t => ?_⟩
      · intro x
        rw [lookup_set]
        by_cases hx : x = k
        · subst hx; simp [hin]
        · rw [if_neg hx]; exact m.keys x
      · obtain ⟨w, nodes, e, r, h⟩ := m.rep t
        rw [run_append, e]
        simp only [Outcome.bind_ret, step]
        rw [← keys_of h] at hin
        obtain ⟨x, hx, hkx⟩ := List.mem_map.1 hin
        obtain ⟨w', e', f, r', hb, _⟩ := r.insertWith_old (heightOf (t hist.length), (randHeight w.skl.seed).2) k v hx hkx
        refine ⟨w', nodes, e', r', ?_⟩
        rw [← h]
        refine List.map_congr_left fun a ha => ?_
        rcases insertWith_height e' with ⟨_, hh⟩ | ⟨hb', _⟩
        · simp only [tower, hh a, f.key a (r.lt_brk a ha)]
        · omega
    · have hb : ∀ p : K → Bool, ((L.filter fun x => p x.1) ++ (k, hist.length) :: (L.filter fun x => !p x.1)).Perm ((k, hist.length) :: L) := by
        intro p
        refine List.perm_middle.trans (List.Perm.cons _ ?_)
        exact List.filter_append_perm (fun x : K × Nat => p x.1) L
      have hp := hb fun x => GoOrdered.lt x k
      refine ⟨(L.filter fun x => GoOrdered.lt x.1 k) ++ (k, hist.length) :: (L.filter fun x => !GoOrdered.lt x.1 k), ?_, ?_, ?_, fun t => ?_⟩
      · intro x
        rw [(hp.map Prod.fst).mem_iff, lookup_set]
        by_cases hx : x = k
        · subst hx; simp
        · rw [if_neg hx, ← m.keys x]; simp [hx]
      · rw [(hp.map Prod.snd).nodup_iff, List.map_cons, List.nodup_cons]
        exact ⟨fun h => Nat.lt_irrefl _ (m.lt _ h), m.nodup⟩
      · intro i hi
        rw [(hp.map Prod.snd).mem_iff, List.map_cons, List.mem_cons] at hi
        rcases hi with rfl | hi
        · simp
        · exact hlt i hi
      · obtain ⟨w, nodes, e, r, h⟩ := m.rep t
        rw [run_append, e]
        simp only [Outcome.bind_ret, step]
        have hk : ∀ a ∈ nodes, (w.heap.mem a).key ≠ k := fun a ha hka => hin (by
          rw [← keys_of h, ← hka]; exact List.mem_map_of_mem ha)
        obtain ⟨w', e', f, r', hkk, _⟩ := r.insertWith_new k v (rh := (heightOf (t hist.length), (randHeight w.skl.seed).2))
          ⟨heightOf_pos _, heightOf_le _⟩ hk
        refine ⟨w', _, e', r', ?_⟩
        have hlt' := r'.lt_brk w.heap.brk (by simp)
        rcases insertWith_height e' with ⟨hb', _⟩ | ⟨_, hh1, hh2⟩
        · omega
        · have ht : ∀ a ∈ nodes, tower w' a = tower w a := fun a ha => by
            have := r.lt_brk a ha
            simp only [tower, f.key a this, hh2 a (by omega)]
          rw [List.map_append, List.map_cons, List.map_append, List.map_cons]
          have h1 : (before w nodes k).map (tower w') = (L.filter fun x => GoOrdered.lt x.1 k).map (made t) := by
            rw [← filter_of h fun x => GoOrdered.lt x k]
            exact List.map_congr_left fun a ha => ht a (List.mem_filter.1 ha).1
          have h2 : (Skl.after w nodes k).map (tower w') = (L.filter fun x => !GoOrdered.lt x.1 k).map (made t) := by
            rw [← filter_of h fun x => !GoOrdered.lt x k]
            exact List.map_congr_left fun a ha => ht a (List.mem_filter.1 ha).1
          rw [h1, h2]
          simp only [tower, made, hkk, hh1]

theorem made_run (seed : BitVec 64) (hist : List (Op K V)) : ∃ L, Made seed hist L := by
  induction hist using List.reverseRecOn with
  | nil => exact ⟨[], made_nil seed⟩
  | append_singleton hist op ih =>
    obtain ⟨L, m⟩ := ih
    exact made_snoc seed m op

theorem comparisons_eq (w : World K V) (c : Call K V) : comparisons w c = (SklCost.search w c.key).2.length := by
  cases c with
  | get k => simp only [comparisons, SklCost.get_snd]; rfl
  | set k v => simp only [comparisons, SklCost.set_snd]; rfl
  | del k => simp only [comparisons, SklCost.del_snd]; rfl
  | seek k => simp only [comparisons, SklCost.seek_snd]; rfl

theorem fins {n : Nat} : ∀ (l : List Nat), (∀ i ∈ l, i < n) → ∃ l' : List (Fin n), l'.map Fin.val = l
  | [], _ => ⟨[], rfl⟩
  | i :: l, h => by
    obtain ⟨l', e⟩ := fins l fun x hx => h x (List.mem_cons_of_mem _ hx)
    exact ⟨⟨i, h i (by simp)⟩ :: l', by simp [e]⟩

/-- One way the coins can fall: the comparisons are bounded by the records of the heights of the smaller keys. -/
theorem after_le {seed : BitVec 64} {hist : List (Op K V)} {L : List (K × Nat)} (m : Made seed hist L) (t : Nat → Coins) (c : Call K V) :
    after (run t (Skl.new seed) hist) c ≤
      records (((L.filter fun x => GoOrdered.lt x.1 c.key).map Prod.snd).map fun i => heightOf (t i)) + 17 := by
  obtain ⟨w, nodes, e, r, h⟩ := m.rep t
  rw [e]
  simp only [after, comparisons_eq]
  have := search_length r c.key
  have hh : (before w nodes c.key).map (fun a => (w.heap.mem a).height) =
      ((L.filter fun x => GoOrdered.lt x.1 c.key).map Prod.snd).map fun i => heightOf (t i) := by
    have := congrArg (List.map Prod.snd) (filter_of h fun x => GoOrdered.lt x c.key)
    simpa [List.map_map, Function.comp_def, tower, made, before] using this
  rw [hh] at this
  exact this

/-- How many keys are smaller. -/
theorem made_length {seed : BitVec 64} {hist : List (Op K V)} {L : List (K × Nat)} (m : Made seed hist L) {ks : List K}
    (hks : PresentKeys hist ks) (k : K) :
    (L.filter fun x => GoOrdered.lt x.1 k).length = (ks.filter fun x => GoOrdered.lt x k).length := by
  obtain ⟨w, nodes, e, r, h⟩ := m.rep fun _ _ => false
  have nd : (L.map Prod.fst).Nodup := by
    rw [← keys_of h, List.Nodup, List.pairwise_map]
    refine r.sorted.imp ?_
    intro a b hab he
    rw [he, LawfulOrdered.irrefl] at hab
    cases hab
  have hperm : ks.Perm (L.map Prod.fst) := (List.perm_ext_iff_of_nodup hks.1 nd).2 fun a => by rw [hks.2 a, m.keys a]
  rw [(hperm.filter _).length_eq, List.filter_map, List.length_map]
  rfl

/-- The mean over all coins. -/
theorem total_le (seed : BitVec 64) (hist : List (Op K V)) (c : Call K V) {ks : List K} (hks : PresentKeys hist ks) :
    2 ^ 15 * total seed hist c ≤
      (32 * 2 ^ 15 + (ks.filter fun x => GoOrdered.lt x c.key).length) * Fintype.card (Tosses hist.length) := by
  obtain ⟨L, m⟩ := made_run seed hist
  have hsub : ((L.filter fun x => GoOrdered.lt x.1 c.key).map Prod.snd).Sublist (L.map Prod.snd) := List.filter_sublist.map _
  obtain ⟨idx, hidx⟩ := fins (n := hist.length) ((L.filter fun x => GoOrdered.lt x.1 c.key).map Prod.snd)
    fun i hi => m.lt i (hsub.subset hi)
  have hn : idx.Nodup := by
    have := m.nodup.sublist hsub
    rw [← hidx] at this
    exact this.of_map _
  have hlen : idx.length = (ks.filter fun x => GoOrdered.lt x c.key).length := by
    rw [← made_length m hks, ← List.length_map (f := Fin.val), hidx, List.length_map]
  have hle : total seed hist c ≤ ∑ t : Tosses hist.length, (records (idx.map fun i => heightOf (t i)) + 17) := by
    refine Finset.sum_le_sum fun t _ => ?_
    have := after_le m (extend t) c
    rw [← hidx, List.map_map] at this
    have e : (idx.map ((fun i => heightOf (extend t i)) ∘ Fin.val)) = idx.map fun i => heightOf (t i) :=
      List.map_congr_left fun i _ => by simp [extend]
    rw [e] at this
    exact this
  have hr := sum_records idx hn
  rw [Finset.sum_add_distrib, Finset.sum_const, Finset.card_univ, smul_eq_mul] at hle
  rw [← hlen]
  calc 2 ^ 15 * total seed hist c ≤ 2 ^ 15 * (∑ t : Tosses hist.length, records (idx.map fun i => heightOf (t i)) +
        Fintype.card (Tosses hist.length) * 17) := Nat.mul_le_mul_left _ hle
    _ = 2 ^ 15 * (∑ t : Tosses hist.length, records (idx.map fun i => heightOf (t i))) +
        2 ^ 15 * (Fintype.card (Tosses hist.length) * 17) := mul_add _ _ _
    _ ≤ (15 * 2 ^ 15 + idx.length) * Fintype.card (Tosses hist.length) + 2 ^ 15 * (Fintype.card (Tosses hist.length) * 17) :=
        Nat.add_le_add_right hr _
    _ = _ := by ring

end Verif.SklMean
