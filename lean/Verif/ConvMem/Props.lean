import Verif.ConvMem.Spec
/-!
# C117: a converted slice is the caller's own
-/
namespace Verif.ConvMem
open Verif.Go

/-- C117 in full, for the converters that give a slice: the result holds what it should and is separate from every slice the program
has. It is false. -/
def C117_full : Prop :=
  (∀ (m : Mem) (g : Nat) (s : List UInt8) (t : Sl), t.Ok m.bytes →
    Separate (stringToBytes m g s).1.bytes (stringToBytes m g s).2 t) ∧
  (∀ (m : Mem) (g : Nat) (s : List UInt8) (t : Sl), t.Ok m.runes →
    Separate (stringToRunes m g s).1.runes (stringToRunes m g s).2 t) ∧
  (∀ (m : Mem) (b t : Sl), b.Ok m.bytes → t.Ok m.bytes → Separate (bytesToBytes m b).1.bytes (bytesToBytes m b).2 t) ∧
  (∀ (m : Mem) (r t : Sl), r.Ok m.runes → t.Ok m.runes → Separate (runesToRunes m r).1.runes (runesToRunes m r).2 t)

theorem fresh_separate {T : Type} [Inhabited T] (h : Hp T) (vs : List T) (g : Nat) (t : Sl) (ht : t.Ok h) :
    Separate (h.alloc vs g).1 (h.alloc vs g).2 t ∧ elems (h.alloc vs g).1 t = elems h t := by
  have hlt : ∀ k, k < t.len → t.arr < h.brk := fun k hk => ht.lt (by have := ht.le; omega)
  have hk : ∀ k, k < t.len → t.arr ≠ h.brk := fun k hk => by have := hlt k hk; omega
  refine ⟨⟨?_, ?_⟩, ?_⟩
  · rintro h' ⟨_, hw⟩
    exact elems_congr (fun k k1 => hw _ _ (by have := hlt k k1; simp only [Hp.alloc]; omega) (.inl (hk k k1)))
  · rintro h' ⟨_, hw⟩
    refine elems_congr (fun k k1 => ?_)
    by_cases hc : 0 < t.cap
    · exact hw _ _ (by simp only [Hp.alloc]; omega) (.inl (by have := ht.lt hc; simp only [Hp.alloc]; omega))
    · exact hw _ _ (by simp only [Hp.alloc]; omega) (by omega)
  · exact elems_congr (fun k k1 => alloc_out h vs g _ _ (hlt k k1))

/-- **C117, what does hold**: the bytes and the runes of a string are a slice of their own: separate from every slice the program has, whose
contents are as before. Missing from the full claim: `[]byte` to `[]byte` and `[]rune` to `[]rune`. -/
theorem C117_partial (m : Mem) (g : Nat) (s : List UInt8) (t : Sl) :
    (t.Ok m.bytes → Separate (stringToBytes m g s).1.bytes (stringToBytes m g s).2 t ∧ elems (stringToBytes m g s).1.bytes t = elems m.bytes t) ∧
    (t.Ok m.runes → Separate (stringToRunes m g s).1.runes (stringToRunes m g s).2 t ∧ elems (stringToRunes m g s).1.runes t = elems m.runes t) :=
  ⟨fun h => fresh_separate _ _ g t h, fun h => fresh_separate _ _ g t h⟩

/-- **C117**: what the new slices hold; so `Into` back and forth gives the same string whatever else the program writes. -/
theorem C117_content (m : Mem) (g : Nat) (s : List UInt8) : elems (stringToBytes m g s).1.bytes (stringToBytes m g s).2 = s ∧
    (∀ (t : Sl), t.Ok m.bytes → ∀ h', WritesThrough t (stringToBytes m g s).1.bytes h' →
      bytesToString { (stringToBytes m g s).1 with bytes := h' } (stringToBytes m g s).2 = s) := by
  have e : elems (stringToBytes m g s).1.bytes (stringToBytes m g s).2 = s := alloc_elems _ _ _
  refine ⟨e, fun t ht h' hw => ?_⟩
  have := (fresh_separate m.bytes s g t ht).1.2 h' hw
  exact this.trans e

/-- **C117, the others**: the slice is handed on: what is written through the result is written in the argument, at every index. -/
theorem C117_shared (m : Mem) (b : Sl) (hb : b.Ok m.bytes) (i : Nat) (hi : i < b.len) (v : UInt8) :
    ∃ h', store (bytesToBytes m b).1.bytes (bytesToBytes m b).2 i v = .ret h' ∧ elems h' b = (elems m.bytes b).set i v := by
  refine ⟨_, if_pos ⟨by omega, by simp only [bytesToBytes]; omega⟩, elems_ext (by simp) (fun k hk => ?_)⟩
  rw [List.getElem?_set, elems_getElem?, elems_length]
  simp only [bytesToBytes, Int.toNat_natCast, if_pos hk]
  by_cases e : i = k
  · subst e
    rw [if_pos rfl, if_pos hk, blit_in _ _ _ _ _ v (by omega) (by simp)]
  · rw [if_neg e, blit_out _ _ _ _ _ _ (by simp; omega)]

theorem C117_shared_runes (m : Mem) (b : Sl) (hb : b.Ok m.runes) (i : Nat) (hi : i < b.len) (v : Int) :
    ∃ h', store (runesToRunes m b).1.runes (runesToRunes m b).2 i v = .ret h' ∧ elems h' b = (elems m.runes b).set i v := by
  refine ⟨_, if_pos ⟨by omega, by simp only [runesToRunes]; omega⟩, elems_ext (by simp) (fun k hk => ?_)⟩
  rw [List.getElem?_set, elems_getElem?, elems_length]
  simp only [runesToRunes, Int.toNat_natCast, if_pos hk]
  by_cases e : i = k
  · subst e
    rw [if_pos rfl, if_pos hk, blit_in _ _ _ _ _ v (by omega) (by simp)]
  · rw [if_neg e, blit_out _ _ _ _ _ _ (by simp; omega)]

/-- A memory with one array of bytes and one of runes. -/
def exM : Mem := ⟨⟨fun _ _ => 0, 1⟩, ⟨fun _ _ => 0, 1⟩⟩

/-- **C117 is false**: a byte written through the result of the conversion from `[]byte` to `[]byte` shows in the argument. -/
theorem C117_refuted : ¬ C117_full := by
  intro ⟨_, _, h, _⟩
  have := (h exM ⟨0, 0, 1, 1⟩ ⟨0, 0, 1, 1⟩ ⟨by decide, fun _ => by decide⟩ ⟨by decide, fun _ => by decide⟩).1 (exM.bytes.blit 0 0 [7])
    ⟨by decide, fun a i _ hx => by
      refine blit_out _ _ _ _ _ _ ?_
      simp only [List.length_singleton, bytesToBytes] at hx ⊢
      omega⟩
  revert this
  decide

/-- A string converted next to a slice that is then changed. -/
example : elems (stringToBytes exM 3 [104, 105]).1.bytes (stringToBytes exM 3 [104, 105]).2 = [104, 105] ∧
    (stringToBytes exM 3 [104, 105]).2.cap = 5 := by decide

end Verif.ConvMem
