import Verif.OrdAny.Lemmas
/-!
# C98: the ordered map with any keys, NaN included
-/
set_option linter.unusedSectionVars false
namespace Verif.OrdAny
open Verif.Go Verif.Skl Verif.MapSpec Verif.Ord Verif.SklAny

section
variable {K V : Type} [GoOrdered K] [Inhabited K] [Inhabited V]

/-- The full statement, for all types in `constraints.Ordered`: the index and the Go map have the same keys. -/
def C98_full : Prop := ∀ (K : Type) [GoOrdered K] [Inhabited K], PartialEq K →
  ∀ (seed : BitVec 64) (hist : List (Op K Int)) (o : OrdMap K Int) (ks : List K),
    Ord.run (Ord.new seed) hist = .ret o → Ord.keys o = .ret ks → ∀ k ∈ ks, (Ord.get o k).isSome

/-- What holds for every symmetric and transitive `==` and any `<`: no call panics or hangs; `Get` is right; `Keys`
has every present key, `Len` is its length, and `Values` and `Range` go through `Keys` with the values `Get` gives,
the zero value where `Get` gives none. Missing from the full statement: `Keys` may have keys that are not present,
and present keys more than once. -/
theorem C98_partial {σ : Type} (pe : PartialEq K) (seed : BitVec 64) (hist : List (Op K V)) :
    ∃ o ks, Ord.run (Ord.new seed) hist = .ret o ∧ (∀ k, Ord.get o k = lookupEq hist k) ∧
      Ord.keys o = .ret ks ∧ Ord.len o = ks.length ∧
      (∀ k, (lookupEq hist k).isSome → ∃ k' ∈ ks, GoOrdered.eq k' k = true) ∧
      Ord.values o = .ret (ks.map fun k => (lookupEq hist k).getD default) ∧
      ∀ (f : σ → K → V → σ × Bool) (s : σ),
        Ord.range o f s = .ret (visit f s (ks.map fun k => (k, (lookupEq hist k).getD default))) := by
  obtain ⟨o, nodes, e, i⟩ := run_inv pe seed hist
  have r := i.rep
  refine ⟨o, nodes.map fun a => (o.skl.heap.mem a).key, e, i.m, ?_, ?_, ?_, ?_, ?_⟩
  · simp [Ord.keys, Skl.keys, r.entries, kvs]
  · simp [Ord.len, Skl.len, r.len]
  · intro k hk
    obtain ⟨x, hx, hxe⟩ := i.sub k hk
    simp only [kvs, List.mem_map] at hx
    obtain ⟨a, ha, rfl⟩ := hx
    exact ⟨_, List.mem_map.2 ⟨a, ha, rfl⟩, hxe⟩
  · have := valuesLoop_spec (o := o) nodes o.skl.skl.head Skl.iterator (o.skl.heap.brk + 1) [] r.chain0 r.ne_tail
      (.inr ⟨rfl, rfl⟩) (by have := r.length_le; omega)
    simpa [Ord.values, pairs, i.m, Function.comp_def] using this
  · intro f s
    have := rangeLoop_spec f nodes o.skl.skl.head Skl.iterator (o.skl.heap.brk + 1) s r.chain0 r.ne_tail
      (.inr ⟨rfl, rfl⟩) (by have := r.length_le; omega)
    simpa [Ord.range, pairs, i.m, Function.comp_def] using this

/-- A key that does not equal itself is never found, not even right after it was set; `Del` ignores it. -/
theorem C98_never_found (pe : PartialEq K) (seed : BitVec 64) (hist : List (Op K V)) (k : K)
    (hk : GoOrdered.eq k k = false) :
    ∃ o, Ord.run (Ord.new seed) hist = .ret o ∧ Ord.get o k = none ∧ Ord.del o k = .ret o := by
  obtain ⟨o, nodes, e, i⟩ := run_inv pe seed hist
  have hn : o.m k = none := by
    rw [i.m]
    cases h : lookupEq hist k with
    | none => rfl
    | some v =>
      have := lookupEq_self pe hist (k := k) (by rw [h]; rfl)
      rw [hk] at this; cases this
  exact ⟨o, e, hn, by simp [Ord.del, hn]⟩

end

/-- `==` of floats. -/
theorem floatEq : PartialEq FloatKey where
  symm := by
    intro a b h
    cases a <;> cases b <;> simp_all [GoOrdered.eq]
  trans := by
    intro a b c h1 h2
    cases a <;> cases b <;> cases c <;> simp_all [GoOrdered.eq]

/-- False for floats. `Set(1, 10); Set(NaN, 20); Del(1)` leaves `Keys() = [NaN, 1]` and `Len() = 2`, though `Get`
finds neither; `Values()` is `[0, 0]`. -/
theorem C98_refuted : ¬ C98_full ∧
    ∃ o, Ord.run (Ord.new 0#64) [.set (FloatKey.num 1) (10 : Int), .set .nan 20, .del (.num 1)] = .ret o ∧
      Ord.keys o = .ret [.nan, .num 1] ∧ Ord.len o = 2 ∧ Ord.values o = .ret [0, 0] ∧
      Ord.get o (.num 1) = none ∧ Ord.get o .nan = none := by
  have h : ∃ o, Ord.run (Ord.new 0#64) [.set (FloatKey.num 1) (10 : Int), .set .nan 20, .del (.num 1)] = .ret o ∧
      Ord.keys o = .ret [.nan, .num 1] ∧ Ord.len o = 2 ∧ Ord.values o = .ret [0, 0] ∧
      Ord.get o (.num 1) = none ∧ Ord.get o .nan = none := ⟨_, rfl, rfl, rfl, rfl, rfl, rfl⟩
  refine ⟨fun hf => ?_, h⟩
  obtain ⟨o, h1, h2, -, -, h5, -⟩ := h
  have := hf FloatKey floatEq _ _ o _ h1 h2 (.num 1) (by simp)
  rw [h5] at this; cases this

/-- A history on which a present key is listed twice. -/
example : ∃ o, Ord.run (Ord.new 0#64) [.set (FloatKey.num 1) (10 : Int), .set .nan 20, .del (.num 1), .set (.num 1) 30] =
    .ret o ∧ Ord.keys o = .ret [.num 1, .nan, .num 1] ∧ Ord.values o = .ret [30, 0, 30] := ⟨_, rfl, rfl, rfl⟩

end Verif.OrdAny
