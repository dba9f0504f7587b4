import Verif.OrdMod.Lemmas
/-!
# Changing a map while going through it: property C88
-/
set_option linter.unusedSectionVars false
namespace Verif.OrdMod
open Verif.Go Verif.Skl Verif.MapSpec Verif.Ord

section
variable {K V σ : Type} [GoOrdered K] [LawfulOrdered K] [DecidableEq K] [Inhabited K] [Inhabited V]

/-- C88 in full: whatever the callback of `Range` does to the map, `Range` does not panic; if it returns, the map has seen the updates
of the callbacks in order and the log is good. -/
def C88_full : Prop := ∀ (K V σ : Type) [GoOrdered K] [LawfulOrdered K] [DecidableEq K] [Inhabited K] [Inhabited V]
  (seed : BitVec 64) (hist : List (Op K V)) (o : OrdMap K V) (f : Callback σ K V) (s : σ) (fuel : Nat),
  Ord.run (Ord.new seed) hist = .ret o →
  range (logged f) fuel o (s, []) ≠ .panic ∧
  ∀ s' l o', range (logged f) fuel o (s, []) = .ret ((s', l), o') → Ord.run o (updates l) = .ret o' ∧ GoodLog hist l

/-- C88 for callbacks that do not clear the map and that, if they delete the key they are called with, delete no other: then the above
holds. Everything else is allowed: setting any keys, deleting any other keys, in any order. -/
theorem C88_partial (seed : BitVec 64) (hist : List (Op K V)) (o : OrdMap K V) (f : Callback σ K V) (s : σ) (fuel : Nat)
    (hf : ∀ s o k v, Tame k (f s o k v).2.1) (ho : Ord.run (Ord.new seed) hist = .ret o) :
    range (logged f) fuel o (s, []) ≠ .panic ∧
    ∀ s' l o', range (logged f) fuel o (s, []) = .ret ((s', l), o') → Ord.run o (updates l) = .ret o' ∧ GoodLog hist l := by
  obtain ⟨o₁, nodes, e, i⟩ := run_inv seed hist
  rw [ho] at e
  cases e
  have i' : Ord.Inv (hist ++ []) o nodes := by simpa using i
  obtain ⟨h1, h2, -⟩ := loop_spec f hf fuel hist [] o nodes Skl.iterator none s [] i' (.start rfl rfl)
  refine ⟨h1, fun s' l o' h => ?_⟩
  obtain ⟨l', nodes', hl, ht, -, hrun⟩ := h2 s' l o' h
  rw [List.nil_append] at hl
  subst hl
  refine ⟨hrun, fun l₁ e l₂ h => ?_, ht.sorted, ht.stops, fun z hz hd => ?_, fun l₁ e l₂ z h1 h2 h3 h4 h5 h6 => ?_⟩
  · simpa using ht.present l₁ e l₂ h
  rotate_left
  · exact ht.added l₁ e l₂ z h1 h2 h3 h4 (by simpa using h5) h6
  · exact ht.complete (by simp) z (fun k hk => by cases hk) hz (by simp) hd

/-- C88: such a loop ends if the callbacks set keys of a finite set only. -/
theorem C88_ends (seed : BitVec 64) (hist : List (Op K V)) (o : OrdMap K V) (f : Callback σ K V) (s : σ)
    (hf : ∀ s o k v, Tame k (f s o k v).2.1) (ho : Ord.run (Ord.new seed) hist = .ret o)
    (ks : List K) (hk : ∀ z, (lookup hist z).isSome → z ∈ ks) (hs : ∀ s o k v z x, .set z x ∈ (f s o k v).2.1 → z ∈ ks)
    (fuel : Nat) (hfuel : ks.length < fuel) : ∃ r, range (logged f) fuel o (s, []) = .ret r := by
  obtain ⟨o₁, nodes, e, i⟩ := run_inv seed hist
  rw [ho] at e
  cases e
  have i' : Ord.Inv (hist ++ []) o nodes := by simpa using i
  obtain ⟨h1, -, h3⟩ := loop_spec f hf fuel hist [] o nodes Skl.iterator none s [] i' (.start rfl rfl)
  have h3 := h3 ks (by simpa using hk) hs (lt_of_le_of_lt (List.length_filter_le _ _) hfuel)
  unfold range
  cases hr : rangeLoop (logged f) fuel Skl.iterator o (s, []) with
  | ret r => exact ⟨r, rfl⟩
  | panic => exact absurd hr h1
  | hang => exact absurd hr h3

/-- The log is all there is: the callback that keeps it behaves like the one that does not. -/
theorem C88_log (f : Callback σ K V) (fuel : Nat) (it : Iter) (o : OrdMap K V) (s : σ) (log : List (Visit K V)) :
    rangeLoop f fuel it o s = (rangeLoop (logged f) fuel it o (s, log)).map (fun r => (r.1.1, r.2)) := by
  induction fuel generalizing it o s log with
  | zero => rfl
  | succ fuel ih =>
    simp only [rangeLoop]
    cases Skl.next o.skl it with
    | panic => rfl
    | hang => rfl
    | ret r =>
      obtain ⟨it', res⟩ := r
      cases res with
      | none => rfl
      | some kv =>
        simp only [Outcome.bind_ret, logged]
        cases Ord.run o (f s o kv.1 ((o.m kv.1).getD default)).2.1 with
        | panic => rfl
        | hang => rfl
        | ret o' =>
          simp only [Outcome.bind_ret]
          by_cases hs : (f s o kv.1 ((o.m kv.1).getD default)).2.2 = true
          · erw [if_pos hs, if_pos hs]; rfl
          · erw [if_neg hs, if_neg hs]; exact ih _ _ _ _

/-! ## Deleting entries on the way -/

/-- Deletes the entries that satisfy `p`. -/
def deleting (p : K → V → Bool) : Callback Unit K V := fun _ _ k v => ((), if p k v then [.del k] else [], false)

theorem deleting_log (p : K → V → Bool) : ∀ (fuel : Nat) (it : Iter) (o : OrdMap K V) (log : List (Visit K V)) r,
    (∀ e ∈ log, e.ops = (if p e.key e.value then [.del e.key] else []) ∧ e.stop = false) →
    rangeLoop (logged (deleting p)) fuel it o ((), log) = .ret r →
    ∀ e ∈ r.1.2, e.ops = (if p e.key e.value then [.del e.key] else []) ∧ e.stop = false := by
  intro fuel
  induction fuel with
  | zero => intro it o log r _ h; simp [rangeLoop] at h
  | succ fuel ih =>
    intro it o log r hlog h
    simp only [rangeLoop] at h
    cases hn : Skl.next o.skl it with
    | panic => rw [hn] at h; cases h
    | hang => rw [hn] at h; cases h
    | ret x =>
      obtain ⟨it', res⟩ := x
      rw [hn] at h
      cases res with
      | none => simp only [Outcome.bind_ret, Outcome.ret_inj] at h; subst h; exact hlog
      | some kv =>
        simp only [Outcome.bind_ret, logged] at h
        cases hrun : Ord.run o (deleting p () o kv.1 ((o.m kv.1).getD default)).2.1 with
        | panic => rw [hrun] at h; cases h
        | hang => rw [hrun] at h; cases h
        | ret o' =>
          rw [hrun] at h
          simp only [Outcome.bind_ret, deleting, Bool.false_eq_true, if_false] at h
          refine ih it' o' _ r ?_ h
          intro e he
          rcases List.mem_append.1 he with he | he
          · exact hlog e he
          · simp only [List.mem_singleton] at he; subst he; exact ⟨rfl, rfl⟩

/-- The keys set in a history. -/
def setKeys (hist : List (Op K V)) : List K := hist.flatMap fun
  | .set k _ => [k]
  | _ => []

theorem mem_setKeys {hist : List (Op K V)} {z : K} (h : (lookup hist z).isSome) : z ∈ setKeys hist := by
  induction hist using List.reverseRecOn with
  | nil => simp [lookup] at h
  | append_singleton hist op ih =>
    have hin : setKeys (hist ++ [op]) = setKeys hist ++ setKeys [op] := by simp [setKeys]
    rw [hin, List.mem_append]
    cases op with
    | set k v =>
      rw [lookup_set] at h
      split at h
      · rename_i e; subst e; exact .inr (by simp [setKeys])
      · exact .inl (ih h)
    | del k =>
      rw [lookup_del] at h
      split at h
      · cases h
      · exact .inl (ih h)
    | clear s => rw [lookup_clear] at h; cases h

/-- Updates of `deleting` leave other keys alone. -/
theorem lookup_deleting {p : K → V → Bool} {z : K} : ∀ (l : List (Visit K V)) (hist : List (Op K V)),
    (∀ e ∈ l, e.ops = (if p e.key e.value then [.del e.key] else []) ∧ e.stop = false) → (∀ e ∈ l, e.key ≠ z) →
    lookup (hist ++ updates l) z = lookup hist z := by
  intro l
  induction l with
  | nil => intro hist _ _; simp [updates]
  | cons e l ih =>
    intro hist h1 h2
    have : updates (e :: l) = e.ops ++ updates l := by simp [updates]
    rw [this, ← List.append_assoc, ih _ (fun e he => h1 e (by simp [he])) (fun e he => h2 e (by simp [he])), (h1 e (by simp)).1]
    split
    · rw [lookup_del, if_neg]; exact fun h => h2 e (by simp) h.symm
    · simp

/-- C88, the common case: a `Range` whose callback deletes the entries that satisfy `p` returns, and leaves the others. -/
theorem C88_filter (p : K → V → Bool) (seed : BitVec 64) (hist : List (Op K V)) (o : OrdMap K V)
    (ho : Ord.run (Ord.new seed) hist = .ret o) (fuel : Nat) (hfuel : hist.length < fuel) :
    ∃ o', range (deleting p) fuel o () = .ret ((), o') ∧
      ∀ z, Ord.get o' z = match lookup hist z with
        | none => none
        | some v => if p z v then none else some v := by
  have hf : ∀ s o k v, Tame k (deleting p s o k v).2.1 := by
    intro s o k v
    simp only [deleting]
    split
    · exact ⟨by simp, by simp⟩
    · exact ⟨by simp, by simp⟩
  have hlen : (setKeys hist).length < fuel := by
    refine lt_of_le_of_lt ?_ hfuel
    clear ho hfuel
    unfold setKeys
    induction hist with
    | nil => simp
    | cons op hist ih =>
      rw [List.flatMap_cons, List.length_append, List.length_cons]
      cases op <;> simp only [List.length_cons, List.length_nil] <;> omega
  obtain ⟨⟨⟨u, l⟩, o'⟩, hr⟩ := C88_ends seed hist o (deleting p) () hf ho (setKeys hist) (fun z => mem_setKeys)
    (fun s o k v z x h => by simp only [deleting] at h; split at h <;> simp at h) fuel hlen
  obtain ⟨hrun, hg⟩ := (C88_partial seed hist o (deleting p) () fuel hf ho).2 u l o' hr
  have hlog := deleting_log p fuel Skl.iterator o [] _ (by simp) hr
  simp only at hlog
  refine ⟨o', ?_, fun z => ?_⟩
  · have := C88_log (deleting p) fuel Skl.iterator o () []
    unfold range at hr ⊢
    rw [this, hr]; rfl
  · obtain ⟨o₁, n₁, e₁, i₁⟩ := run_inv seed (hist ++ updates l)
    rw [Ord.run_append, ho, Outcome.bind_ret, hrun] at e₁
    cases e₁
    have : Ord.get o' z = lookup (hist ++ updates l) z := i₁.m z
    rw [this]
    by_cases hv : ∃ e ∈ l, e.key = z
    · obtain ⟨e, he, rfl⟩ := hv
      obtain ⟨l₁, l₂, rfl⟩ := List.append_of_mem he
      have h1 := hg.present l₁ e l₂ rfl
      have hs := List.pairwise_append.1 hg.sorted
      have n1 : ∀ e' ∈ l₁, e'.key ≠ e.key := by
        intro e' he' hk
        have := hs.2.2 e' he' e (by simp)
        rw [hk, LawfulOrdered.irrefl] at this; cases this
      have n2 : ∀ e' ∈ l₂, e'.key ≠ e.key := by
        intro e' he' hk
        have := (List.pairwise_cons.1 hs.2.1).1 e' he'
        rw [hk, LawfulOrdered.irrefl] at this; cases this
      have g1 : ∀ e' ∈ l₁, e'.ops = (if p e'.key e'.value then [.del e'.key] else []) ∧ e'.stop = false :=
        fun e' h => hlog e' (by simp [h])
      have g2 : ∀ e' ∈ l₂, e'.ops = (if p e'.key e'.value then [.del e'.key] else []) ∧ e'.stop = false :=
        fun e' h => hlog e' (by simp [h])
      rw [lookup_deleting l₁ hist g1 n1] at h1
      rw [h1]
      have hu : updates (l₁ ++ e :: l₂) = updates l₁ ++ e.ops ++ updates l₂ := by simp [updates]
      rw [hu, ← List.append_assoc, lookup_deleting l₂ _ g2 n2, ← List.append_assoc, (hlog e (by simp)).1]
      by_cases hp : p e.key e.value = true
      · simp only [hp, if_true]; rw [lookup_del, if_pos rfl]
      · simp only [hp, if_false, Bool.false_eq_true, List.append_nil]
        rw [lookup_deleting l₁ hist g1 n1, h1]
    · have hn : ∀ e ∈ l, e.key ≠ z := fun e he hk => hv ⟨e, he, hk⟩
      rw [lookup_deleting l hist hlog hn]
      cases hl : lookup hist z with
      | none => rfl
      | some v =>
        exfalso
        have nd : ∀ e ∈ l, GoOrdered.lt e.key z = true → .del z ∉ e.ops := by
          intro e he _ hd
          rw [(hlog e he).1] at hd
          split at hd
          · simp only [List.mem_singleton, Op.del.injEq] at hd; exact hn e he hd.symm
          · cases hd
        rcases hg.complete z (by rw [hl]; rfl) nd with h | ⟨e, he, hs, _⟩
        · exact hv h
        · rw [(hlog e he).2] at hs; cases hs

/-! ## Clearing the map in the callback -/

/-- Clears the map at every call and never stops. -/
def clearing (seed : BitVec 64) : Callback Unit K V := fun _ _ _ _ => ((), [.clear seed], false)

theorem clear_loop (seed : BitVec 64) : ∀ (S : List Nat) (o : OrdMap K V) (x t : Nat) (fuel : Nat),
    Chain (fun a => (o.skl.heap.mem a).next 0) t x S → (o.skl.heap.mem t).next 0 = none →
    t < o.skl.heap.brk → (∀ a ∈ S, a < o.skl.heap.brk) → x < o.skl.heap.brk → t ≠ o.skl.skl.tail → (∀ a ∈ S, a ≠ o.skl.skl.tail) →
    S.length + 1 < fuel → rangeLoop (clearing seed) fuel ⟨some x⟩ o () = .panic := by
  have old : ∀ (o : OrdMap K V) (a : Nat), a < o.skl.heap.brk → (Ord.clear o seed).skl.heap.mem a = o.skl.heap.mem a := by
    intro o a ha
    have h1 : a ≠ o.skl.heap.brk := by omega
    have h2 : a ≠ o.skl.heap.brk + 1 := by omega
    simp [Ord.clear, Skl.clear, newIn, h1, h2]
  have tl : ∀ o : OrdMap K V, (Ord.clear o seed).skl.skl.tail = o.skl.heap.brk + 1 := fun _ => rfl
  have br : ∀ o : OrdMap K V, (Ord.clear o seed).skl.heap.brk = o.skl.heap.brk + 2 := fun _ => rfl
  have go : ∀ (o : OrdMap K V) (x y : Nat) (fuel : Nat), (o.skl.heap.mem x).next 0 = some y → y ≠ o.skl.skl.tail →
      rangeLoop (clearing seed) (fuel + 1) ⟨some x⟩ o () = rangeLoop (clearing seed) fuel ⟨some y⟩ (Ord.clear o seed) () := by
    intro o x y fuel hn ht
    simp only [rangeLoop, Skl.next, hn, if_neg ht, Outcome.bind_ret, clearing, Ord.run, Ord.step]
    rfl
  have last : ∀ (o : OrdMap K V) (t : Nat) (fuel : Nat), (o.skl.heap.mem t).next 0 = none →
      rangeLoop (clearing seed) (fuel + 1) ⟨some t⟩ o () = .panic := by
    intro o t fuel hn
    simp only [rangeLoop, Skl.next, hn, Outcome.bind_panic]
  intro S
  induction S with
  | nil =>
    intro o x t fuel hc hn ht _ hx hne _ hf
    obtain ⟨fuel, rfl⟩ : ∃ n, fuel = n + 2 := ⟨fuel - 2, by simp at hf; omega⟩
    rw [go o x t (fuel + 1) hc hne]
    exact last _ t fuel (by rw [old o t ht]; exact hn)
  | cons y S ih =>
    intro o x t fuel hc hn ht hS hx hne hSne hf
    obtain ⟨fuel, rfl⟩ : ∃ n, fuel = n + 1 := ⟨fuel - 1, by simp at hf; omega⟩
    rw [go o x y fuel hc.1 (hSne y (by simp))]
    have hy := hS y (by simp)
    refine ih _ y t fuel (Chain.congr ?_ ?_ hc.2) ?_ ?_ ?_ ?_ ?_ ?_ ?_
    · show ((Ord.clear o seed).skl.heap.mem y).next 0 = (o.skl.heap.mem y).next 0
      rw [old o y hy]
    · intro b hb
      show ((Ord.clear o seed).skl.heap.mem b).next 0 = (o.skl.heap.mem b).next 0
      rw [old o b (hS b (by simp [hb]))]
    · rw [old o t ht]; exact hn
    · rw [br]; omega
    · intro a ha; rw [br]; have := hS a (by simp [ha]); omega
    · rw [br]; omega
    · rw [tl]; omega
    · intro a ha; rw [tl]; have := hS a (by simp [ha]); omega
    · simp at hf; omega

/-- C88 is false for callbacks that clear the map: with any map that is not empty, `Range` then panics. -/
theorem C88_clear (seed seed' : BitVec 64) (hist : List (Op K V)) (o : OrdMap K V) (k : K) (hk : (lookup hist k).isSome)
    (ho : Ord.run (Ord.new seed) hist = .ret o) (fuel : Nat) (hfuel : o.skl.heap.brk + 2 < fuel) :
    range (clearing seed') fuel o () = .panic := by
  obtain ⟨o₁, nodes, e, i⟩ := run_inv seed hist
  rw [ho] at e
  cases e
  obtain ⟨h', ha, hd⟩ := i.idx
  have r := i.rep
  have hc := r.chain0
  have hlen := r.length_le
  cases nodes with
  | nil =>
    have : (lookup h' k) = none := (ha.none_iff k).2 (by simp)
    have h2 := hd k
    rw [this, Bool.eq_false_iff.2 (by simp : ¬ (none : Option Unit).isSome = true)] at h2
    rw [hk] at h2; cases h2
  | cons y S =>
    obtain ⟨fuel, rfl⟩ : ∃ n, fuel = n + 1 := ⟨fuel - 1, by omega⟩
    have hy := r.lt_brk y (by simp)
    have hyt := r.ne_tail y (by simp)
    have hcy : (o.skl.heap.mem o.skl.skl.head).next 0 = some y := hc.1
    have e1 : range (clearing seed') (fuel + 1) o () = rangeLoop (clearing seed') fuel ⟨some y⟩ (Ord.clear o seed') () := by
      simp only [range, rangeLoop, Skl.next, Skl.iterator, hcy, if_neg hyt, Outcome.bind_ret, clearing, Ord.run, Ord.step]
      rfl
    rw [e1]
    have old : ∀ a < o.skl.heap.brk, (Ord.clear o seed').skl.heap.mem a = o.skl.heap.mem a := by
      intro a ha
      have h1 : a ≠ o.skl.heap.brk := by omega
      have h2 : a ≠ o.skl.heap.brk + 1 := by omega
      simp [Ord.clear, Skl.clear, newIn, h1, h2]
    have tl : (Ord.clear o seed').skl.skl.tail = o.skl.heap.brk + 1 := rfl
    have br : (Ord.clear o seed').skl.heap.brk = o.skl.heap.brk + 2 := rfl
    have htl := r.tail_lt
    refine clear_loop seed' S _ y o.skl.skl.tail fuel (Chain.congr ?_ ?_ hc.2) ?_ ?_ ?_ ?_ ?_ ?_ ?_
    · show ((Ord.clear o seed').skl.heap.mem y).next 0 = (o.skl.heap.mem y).next 0
      rw [old y hy]
    · intro b hb
      show ((Ord.clear o seed').skl.heap.mem b).next 0 = (o.skl.heap.mem b).next 0
      rw [old b (r.lt_brk b (by simp [hb]))]
    · rw [old _ htl]; exact r.tail_next
    · rw [br]; omega
    · intro a ha; rw [br]; have := r.lt_brk a (by simp [ha]); omega
    · rw [br]; omega
    · rw [tl]; omega
    · intro a ha; rw [tl]; have := r.lt_brk a (by simp [ha]); omega
    · simp only [List.length_cons] at hlen; omega

end

/-! ## Deleting the current key and the next one -/

/-- Deletes 1 and 2 when called with 1. -/
def greedy : Callback Unit Int Int := fun _ _ k _ => ((), if k = 1 then [.del 1, .del 2] else [], false)

def exHist : List (Op Int Int) := [.set 1 10, .set 2 20]

/-- The hypotheses of `C88_partial` and `C88_ends` hold of a callback that deletes its own key, sets one and stops at 5. -/
def mild : Callback Unit Int Int := fun _ _ k _ => ((), [.set 7 k, .del k, .set 8 0], k == 5)

example : (∀ s o k v, Tame k (mild s o k v).2.1) ∧ (∀ s o k v z x, .set z x ∈ (mild s o k v).2.1 → z ∈ [1, 2, 7, 8]) ∧
    (∀ z, (lookup exHist z).isSome → z ∈ [1, 2, 7, 8]) := by
  refine ⟨fun s o k v => ⟨by simp [mild], by simp [mild]⟩, ?_, ?_⟩
  · intro s o k v z x h
    simp only [mild, List.mem_cons, Op.set.injEq, reduceCtorEq, List.not_mem_nil, or_false, false_or] at h
    rcases h with ⟨rfl, _⟩ | ⟨rfl, _⟩ <;> simp
  · intro z h
    have := mem_setKeys h
    simp only [setKeys, exHist, List.flatMap_cons, List.flatMap_nil, List.mem_append, List.mem_singleton, List.not_mem_nil, or_false] at this
    rcases this with rfl | rfl <;> simp

example : ∃ o o', Ord.run (Ord.new 0#64) exHist = .ret o ∧
    range (logged mild) 6 o ((), []) = .ret (((), [⟨1, 10, [.set 7 1, .del 1, .set 8 0], false⟩, ⟨2, 20, [.set 7 2, .del 2, .set 8 0], false⟩,
      ⟨7, 2, [.set 7 7, .del 7, .set 8 0], false⟩, ⟨8, 0, [.set 7 8, .del 8, .set 8 0], false⟩]), o') := ⟨_, _, rfl, rfl⟩

example : (lookup exHist 1).isSome ∧ exHist.length < 3 := by decide

theorem greedy_run : ∃ o o', Ord.run (Ord.new 0#64) exHist = .ret o ∧
    range (logged greedy) 4 o ((), []) = .ret (((), [⟨1, 10, [.del 1, .del 2], false⟩, ⟨2, 0, [], false⟩]), o') := by
  exact ⟨_, _, rfl, rfl⟩

/-- C88 is false for callbacks that delete their key and another: the deleted key is visited, with the zero value. -/
theorem C88_refuted : ¬ C88_full := by
  intro h
  obtain ⟨o, o', h1, h2⟩ := greedy_run
  have := ((h Int Int Unit 0#64 exHist o greedy () 4 h1).2 _ _ _ h2).2.present [⟨1, 10, [.del 1, .del 2], false⟩] ⟨2, 0, [], false⟩ [] rfl
  exact absurd this (by decide)

/-- C88 also fails for callbacks that clear the map, in the same sense. -/
theorem C88_refuted_clear : ¬ C88_full := by
  intro h
  obtain ⟨o, nodes, e, -⟩ := run_inv (K := Int) (V := Int) 0#64 exHist
  have h1 := (h Int Int Unit 0#64 exHist o (clearing 0#64) () (o.skl.heap.brk + 3) e).1
  have h2 := C88_clear 0#64 0#64 exHist o 1 (by decide) e (o.skl.heap.brk + 3) (by omega)
  have h3 := C88_log (clearing 0#64) (o.skl.heap.brk + 3) Skl.iterator o () []
  have h4 : rangeLoop (clearing 0#64) (o.skl.heap.brk + 3) Skl.iterator o () = .panic := h2
  rw [h4] at h3
  unfold range at h1
  cases hr : rangeLoop (logged (clearing 0#64)) (o.skl.heap.brk + 3) Skl.iterator o ((), []) with
  | ret r => rw [hr] at h3; cases h3
  | panic => exact h1 hr
  | hang => rw [hr] at h3; cases h3

/-! ## A loop that feeds itself -/

/-- Sets the next key. -/
def feeding : Callback Unit Int Int := fun _ _ k v => ((), [.set (k + 1) v], false)

/-- The finite set in `C88_ends` is needed: a callback that always sets the next key keeps `Range` going for ever. -/
theorem C88_endless (seed : BitVec 64) (hist : List (Op Int Int)) (o : OrdMap Int Int) (k : Int) (hk : (lookup hist k).isSome)
    (ho : Ord.run (Ord.new seed) hist = .ret o) (fuel : Nat) : range (logged feeding) fuel o ((), []) = .hang := by
  have hf : ∀ s o k v, Tame k (feeding s o k v).2.1 := fun s o k v => ⟨by simp [feeding], by simp [feeding]⟩
  obtain ⟨h1, h2⟩ := C88_partial seed hist o feeding () fuel hf ho
  cases hr : range (logged feeding) fuel o ((), []) with
  | hang => rfl
  | panic => exact absurd hr h1
  | ret r =>
    obtain ⟨⟨s', l⟩, o'⟩ := r
    exfalso
    have hg := (h2 s' l o' hr).2
    -- no log of `feeding` ends
    have hlog : ∀ e ∈ l, e.ops = [.set (e.key + 1) e.value] ∧ e.stop = false := by
      have gen : ∀ (fuel : Nat) (it : Iter) (o : OrdMap Int Int) (log : List (Visit Int Int)) r,
          (∀ e ∈ log, e.ops = [.set (e.key + 1) e.value] ∧ e.stop = false) →
          rangeLoop (logged feeding) fuel it o ((), log) = .ret r → ∀ e ∈ r.1.2, e.ops = [.set (e.key + 1) e.value] ∧ e.stop = false := by
        intro fuel
        induction fuel with
        | zero => intro it o log r _ h; simp [rangeLoop] at h
        | succ fuel ih =>
          intro it o log r hlog h
          simp only [rangeLoop] at h
          cases hn : Skl.next o.skl it with
          | panic => rw [hn] at h; cases h
          | hang => rw [hn] at h; cases h
          | ret x =>
            obtain ⟨it', res⟩ := x
            rw [hn] at h
            cases res with
            | none => simp only [Outcome.bind_ret, Outcome.ret_inj] at h; subst h; exact hlog
            | some kv =>
              simp only [Outcome.bind_ret, logged] at h
              cases hrun : Ord.run o (feeding () o kv.1 ((o.m kv.1).getD default)).2.1 with
              | panic => rw [hrun] at h; cases h
              | hang => rw [hrun] at h; cases h
              | ret o' =>
                rw [hrun] at h
                simp only [Outcome.bind_ret, feeding, Bool.false_eq_true, if_false] at h
                refine ih it' o' _ r ?_ h
                intro e he
                rcases List.mem_append.1 he with he | he
                · exact hlog e he
                · simp only [List.mem_singleton] at he; subst he; exact ⟨rfl, rfl⟩
      exact gen fuel Skl.iterator o [] _ (by simp) hr
    -- the last call set a key that was then not visited
    rcases List.eq_nil_or_concat l with rfl | ⟨l₁, e, rfl⟩
    · rcases hg.complete k hk (by simp) with ⟨e, he, _⟩ | ⟨e, he, _⟩ <;> cases he
    · obtain ⟨h3, h4⟩ := hlog e (by simp)
      rcases hg.added l₁ e [] (e.key + 1) (by simp) h4 (by rw [h3]; simp) (by simp [GoOrdered.lt])
        (by simp [updates, h3, ← List.append_assoc, lookup_set]) (by simp) with ⟨e, he, _⟩ | ⟨e, he, _⟩ <;> cases he

end Verif.OrdMod
