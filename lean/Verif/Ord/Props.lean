import Verif.Skl.Refine
import Verif.Ord.Model
import Verif.Ord.Spec
/-!
# Properties C09-C10: the ordered map `ordmapx`
-/
set_option linter.unusedSectionVars false
namespace Verif.Ord
open Verif.Go Verif.Skl Verif.MapSpec

section
variable {K V : Type} [GoOrdered K] [LawfulOrdered K] [DecidableEq K] [Inhabited K] [Inhabited V]

/-- Run one update. -/
def step (o : OrdMap K V) : Op K V → Outcome (OrdMap K V)
  | .set k v => Ord.set o k v
  | .del k => Ord.del o k
  | .clear seed => .ret (Ord.clear o seed)

/-- Run a history, oldest update first. -/
def run (o : OrdMap K V) : List (Op K V) → Outcome (OrdMap K V)
  | [] => .ret o
  | op :: ops => (step o op).bind fun o' => run o' ops

/-- The Go map holds what the history says and the index holds the same keys. -/
structure Inv (hist : List (Op K V)) (o : OrdMap K V) (nodes : List Nat) : Prop where
  rep : Rep o.skl nodes
  idx : ∃ h' : List (Op K Unit), Abs h' o.skl nodes ∧
    ∀ k, (lookup h' k).isSome = (lookup hist k).isSome
  m : ∀ k, o.m k = lookup hist k

theorem assign_eq (m : K → Option V) (k k' : K) (v : V) :
    assign m k v k' = if k' = k then some v else m k' := by
  unfold assign
  by_cases h : k' = k
  · simp [h, (LawfulOrdered.eq_iff k k).2 rfl]
  · have : ¬ GoOrdered.eq k' k = true := fun e => h ((LawfulOrdered.eq_iff _ _).1 e)
    simp [h, this]

theorem erase_eq (m : K → Option V) (k k' : K) :
    erase m k k' = if k' = k then none else m k' := by
  unfold erase
  by_cases h : k' = k
  · simp [h, (LawfulOrdered.eq_iff k k).2 rfl]
  · have : ¬ GoOrdered.eq k' k = true := fun e => h ((LawfulOrdered.eq_iff _ _).1 e)
    simp [h, this]

theorem step_inv {hist : List (Op K V)} {o : OrdMap K V} {nodes : List Nat} (i : Inv hist o nodes)
    (op : Op K V) : ∃ o' nodes', step o op = .ret o' ∧ Inv (hist ++ [op]) o' nodes' := by
  obtain ⟨h', ha, hd⟩ := i.idx
  cases op with
  | set k v =>
    simp only [step, Ord.set]
    split
    · obtain ⟨w', n', e, r', a', _⟩ := set_step i.rep ha k ()
      refine ⟨_, n', by rw [e]; rfl, r', ⟨_, a', ?_⟩, ?_⟩
      · intro k'; rw [lookup_set, lookup_set]; split <;> simp [hd]
      · intro k'; simp only; rw [assign_eq, lookup_set, i.m]
    · rename_i hn
      refine ⟨_, nodes, rfl, i.rep, ⟨h', ha, ?_⟩, ?_⟩
      · intro k'; rw [lookup_set]; split
        · rename_i e; subst e
          rw [hd, ← i.m]; cases h : o.m k' <;> simp_all
        · exact hd k'
      · intro k'; simp only; rw [assign_eq, lookup_set, i.m]
  | del k =>
    simp only [step, Ord.del]
    split
    · obtain ⟨w', n', e, r', a', _⟩ := del_step i.rep ha k
      refine ⟨_, n', by rw [e]; rfl, r', ⟨_, a', ?_⟩, ?_⟩
      · intro k'; rw [lookup_del, lookup_del]; split <;> simp [hd]
      · intro k'; simp only; rw [erase_eq, lookup_del, i.m]
    · rename_i hn
      have hk : lookup hist k = none := by rw [← i.m]; cases h : o.m k <;> simp_all
      have hl : ∀ k', lookup (hist ++ [.del k]) k' = lookup hist k' := by
        intro k'; rw [lookup_del]; split
        · rename_i e; subst e; exact hk.symm
        · rfl
      exact ⟨_, nodes, rfl, i.rep, ⟨h', ha, fun k' => by rw [hl, hd]⟩, fun k' => by rw [hl, i.m]⟩
  | clear s =>
    refine ⟨_, [], rfl, (clear_step (hist := h') o.skl s).1, ⟨_, (clear_step (hist := h') o.skl s).2, ?_⟩, ?_⟩
    · intro k'; rw [lookup_clear, lookup_clear]; rfl
    · intro k'; rw [lookup_clear]; rfl

theorem run_append (o : OrdMap K V) (xs ys : List (Op K V)) :
    run o (xs ++ ys) = (run o xs).bind fun o' => run o' ys := by
  induction xs generalizing o with
  | nil => rfl
  | cons x xs ih =>
    simp only [List.cons_append, run]
    cases h : step o x <;> simp [ih]

theorem run_inv (seed : BitVec 64) (hist : List (Op K V)) :
    ∃ o nodes, run (Ord.new seed) hist = .ret o ∧ Inv hist o nodes := by
  induction hist using List.reverseRecOn with
  | nil =>
    refine ⟨_, [], rfl, (new_rep seed).1, ⟨[], (new_rep seed).2, fun k => rfl⟩, fun k => rfl⟩
  | append_singleton hist op ih =>
    obtain ⟨o, nodes, e, i⟩ := ih
    obtain ⟨o', n', e', i'⟩ := step_inv i op
    exact ⟨o', n', by rw [run_append, e]; simp [run, e'], i'⟩

theorem Inv.present {hist : List (Op K V)} {o : OrdMap K V} {nodes : List Nat} (i : Inv hist o nodes) :
    PresentKeys hist (nodes.map fun a => (o.skl.heap.mem a).key) := by
  obtain ⟨h', ha, hd⟩ := i.idx
  have := keys_present i.rep ha
  exact ⟨this.1, fun k => by rw [this.2 k, hd]⟩

/-- The entries in key order. -/
def pairs (o : OrdMap K V) (nodes : List Nat) : List (K × V) :=
  nodes.map fun a => ((o.skl.heap.mem a).key, (o.m (o.skl.heap.mem a).key).getD default)

theorem Inv.pairs_spec {hist : List (Op K V)} {o : OrdMap K V} {nodes : List Nat} (i : Inv hist o nodes)
    (k : K) (v : V) : (k, v) ∈ pairs o nodes ↔ lookup hist k = some v := by
  have hp := i.present
  constructor
  · intro h
    simp only [pairs, List.mem_map, Prod.mk.injEq] at h
    obtain ⟨a, ha, rfl, rfl⟩ := h
    have : (lookup hist (o.skl.heap.mem a).key).isSome := (hp.2 _).1 (List.mem_map.2 ⟨a, ha, rfl⟩)
    obtain ⟨v, hv⟩ := Option.isSome_iff_exists.1 this
    rw [i.m, hv]; rfl
  · intro h
    have : k ∈ nodes.map fun a => (o.skl.heap.mem a).key := (hp.2 k).2 (by rw [h]; rfl)
    obtain ⟨a, ha, hk⟩ := List.mem_map.1 this
    subst hk
    simp only [pairs, List.mem_map, Prod.mk.injEq]
    exact ⟨a, ha, rfl, by rw [i.m, h]; rfl⟩

omit [LawfulOrdered K] [DecidableEq K] in
theorem valuesLoop_spec {o : OrdMap K V} : ∀ (l : List Nat) (a : Nat) (it : Iter) (fuel : Nat) (acc : List V),
    Chain (fun a => (o.skl.heap.mem a).next 0) o.skl.skl.tail a l → (∀ b ∈ l, b ≠ o.skl.skl.tail) →
    (it.node = some a ∨ (it.node = none ∧ a = o.skl.skl.head)) → l.length < fuel →
    valuesLoop o fuel it acc = .ret (acc ++ (pairs o l).map Prod.snd)
  | [], a, it, fuel + 1, acc, hc, _, hit, _ => by
    simp [valuesLoop, next_nil hc hit, pairs]
  | b :: l, a, it, fuel + 1, acc, hc, ht, hit, hf => by
    rw [valuesLoop, next_cons hc (ht b (by simp)) hit]
    have ih := valuesLoop_spec l b ⟨some b⟩ fuel (acc ++ [(o.m (o.skl.heap.mem b).key).getD default]) hc.2
      (fun c h => ht c (by simp [h])) (.inl rfl) (by simp at hf; omega)
    simp [ih, pairs]

omit [LawfulOrdered K] [DecidableEq K] in
theorem rangeLoop_spec {σ : Type} {o : OrdMap K V} (f : σ → K → V → σ × Bool) :
    ∀ (l : List Nat) (a : Nat) (it : Iter) (fuel : Nat) (s : σ),
    Chain (fun a => (o.skl.heap.mem a).next 0) o.skl.skl.tail a l → (∀ b ∈ l, b ≠ o.skl.skl.tail) →
    (it.node = some a ∨ (it.node = none ∧ a = o.skl.skl.head)) → l.length < fuel →
    rangeLoop o f fuel it s = .ret (visit f s (pairs o l))
  | [], a, it, fuel + 1, s, hc, _, hit, _ => by
    simp [rangeLoop, next_nil hc hit, pairs, visit]
  | b :: l, a, it, fuel + 1, s, hc, ht, hit, hf => by
    rw [rangeLoop, next_cons hc (ht b (by simp)) hit]
    have ih := rangeLoop_spec f l b ⟨some b⟩ fuel
      (f s (o.skl.heap.mem b).key ((o.m (o.skl.heap.mem b).key).getD default)).1 hc.2
      (fun c h => ht c (by simp [h])) (.inl rfl) (by simp at hf; omega)
    simp only [Outcome.bind_ret, ih, pairs, visit, List.map_cons]
    split <;> rfl

/-- **C09.** After every history no call has panicked or hung, `Get` and `Len` agree with the
history, and the ordered index lists exactly the keys `Get` finds. -/
theorem C09_ordmap_finite_map (seed : BitVec 64) (hist : List (Op K V)) :
    ∃ o, run (Ord.new seed) hist = .ret o ∧ (∀ k, Ord.get o k = lookup hist k) ∧
      ∃ ks, PresentKeys hist ks ∧ Ord.len o = ks.length ∧ Ord.keys o = .ret ks := by
  obtain ⟨o, nodes, e, i⟩ := run_inv seed hist
  refine ⟨o, e, i.m, _, i.present, ?_, ?_⟩
  · simp [Ord.len, Skl.len, i.rep.len]
  · simp [Ord.keys, Skl.keys, i.rep.entries, kvs]

/-- **C10.** `Keys` is strictly ascending and complete, `Values` is aligned with it, and `Range`
visits exactly these entries in this order, stopping right after the first callback that says so. -/
theorem C10_ordmap_enumeration {σ : Type} (seed : BitVec 64) (hist : List (Op K V)) :
    ∃ (o : OrdMap K V) (l : List (K × V)), run (Ord.new seed) hist = .ret o ∧
      l.Pairwise (fun a b => GoOrdered.lt a.1 b.1 = true) ∧
      (∀ k v, (k, v) ∈ l ↔ lookup hist k = some v) ∧
      Ord.keys o = .ret (l.map Prod.fst) ∧ Ord.values o = .ret (l.map Prod.snd) ∧
      ∀ (f : σ → K → V → σ × Bool) (s : σ), Ord.range o f s = .ret (visit f s l) := by
  obtain ⟨o, nodes, e, i⟩ := run_inv seed hist
  have r := i.rep
  refine ⟨o, pairs o nodes, e, ?_, i.pairs_spec, ?_, ?_, ?_⟩
  · rw [pairs, List.pairwise_map]; exact r.sorted
  · simp [Ord.keys, Skl.keys, r.entries, kvs, pairs]
  · have := valuesLoop_spec (o := o) nodes o.skl.skl.head Skl.iterator (o.skl.heap.brk + 1) [] r.chain0 r.ne_tail
      (.inr ⟨rfl, rfl⟩) (by have := r.length_le; omega)
    simpa [Ord.values] using this
  · intro f s
    exact rangeLoop_spec f nodes o.skl.skl.head Skl.iterator (o.skl.heap.brk + 1) s r.chain0 r.ne_tail
      (.inr ⟨rfl, rfl⟩) (by have := r.length_le; omega)

end

/-- A run with an overwrite, a deletion and a stop after the second entry. -/
example : ∃ o : OrdMap Int Int, run (Ord.new 7#64) [.set 3 30, .set 1 10, .set 2 20, .set 3 31, .del 1] = .ret o ∧
    Ord.range o (fun s k v => (s ++ [(k, v)], decide (k = 2))) [] = .ret [(2, 20)] := by
  obtain ⟨o, l, e, hs, hm, _, _, hr⟩ := C10_ordmap_enumeration (σ := List (Int × Int)) (V := Int) 7#64
    [.set 3 30, .set 1 10, .set 2 20, .set 3 31, .del (1 : Int)]
  refine ⟨o, e, ?_⟩
  rw [hr]
  have h2 : ((2, 20) : Int × Int) ∈ l := (hm 2 20).2 (by decide)
  cases l with
  | nil => simp at h2
  | cons e l =>
    obtain ⟨k, v⟩ := e
    have hk := (hm k v).1 (by simp)
    rcases List.mem_cons.1 h2 with he | ht
    · cases he; simp [visit]
    · have hlt := (List.pairwise_cons.1 hs).1 _ ht
      simp [GoOrdered.lt] at hlt
      by_cases h1 : k = 1
      · subst h1; simp [lookup] at hk
      · simp [lookup, h1, show k ≠ 2 by omega, show k ≠ 3 by omega] at hk

end Verif.Ord
