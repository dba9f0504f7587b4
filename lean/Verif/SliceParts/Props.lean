import Verif.SliceParts.Lemmas
/-!
# C111: the pieces of `Split` and `Batch` can be used separately

A program that splits a slice and works on the pieces expects a call on one piece to leave the others as
they are. That is false: every piece but the last has the elements of the following pieces in its spare
capacity, so a call that adds an element to it - and `Rotate`, which appends - overwrites them
(`C111_refuted`; `C111_push` says exactly what `Push` does to the next piece). What does hold: calls that add
nothing never change another piece (`C111_partial`), and no call at all changes an earlier one
(`C111_earlier`).
-/
namespace Verif.SliceParts
open Verif.Go Verif.Slicex
variable {T : Type} [Inhabited T]

/-- The full claim: for all calls. It is false (`C111_refuted`). -/
def C111_full : Prop := Separate (T := Nat) fun _ => True

/-- **C111, what does hold**: `Set`, `Reverse`, `Shuffle`, `Filter`, `Clear`, `Slice`, `Cut`, `Delete`, `Pop`,
`Shift`, `DeleteReplace` and `Repeat` on one piece, in any number and order, change no other piece. Missing
from the full claim: the calls that add elements, and `Rotate`. -/
theorem C111_partial : Separate (Call.Tame (T := T)) := by
  intro h s r o hl w h1 r1 u i p c h2 p2 hp hc e j q hji hq
  have v := used_inv (inv_start o (w.wins o hl)) u
  exact (keeps_other (v.ok _ _ hq) (v.apart _ _ _ _ (Ne.symm hji) hp hq) (act_keeps (v.ok _ _ hp) hc e)).1

/-- **C111, earlier pieces**: no call at all on a piece changes a piece before it. -/
theorem C111_earlier (h : Hp T) (s : Sl) (r : List Sl) (o : s.Ok h) (hl : (s.len : Int) < 2 ^ 63) (w : Pieces s r)
    (i j : Nat) (p q : Sl) (c : Call T) (h2 : Hp T) (p2 : Sl) (hp : r[i]? = some p) (e : act h p c = .ret (h2, p2))
    (hji : j < i) (hq : r[j]? = some q) : elems h2 q = elems h q := by
  have w := w.wins o hl
  have v := inv_start o w
  have hb := w.before hq hp hji
  have oq := v.ok _ _ hq
  exact elems_congr (fun m hm => act_front (v.ok _ _ hp) e _ _ (oq.lt (Nat.lt_of_lt_of_le (by omega) oq.le)) (by omega))

/-- **C111, `Push` on a piece in front of another**: the first element of the next piece becomes the pushed
one - always, whatever the sizes. -/
theorem C111_push (h : Hp T) (s : Sl) (r : List Sl) (o : s.Ok h) (hl : (s.len : Int) < 2 ^ 63) (w : Pieces s r)
    (i : Nat) (p q : Sl) (hp : r[i]? = some p) (hq : r[i + 1]? = some q) (hne : 0 < q.len) (x : T) (g1 g2 : Nat) :
    ∃ h2 p2, push h g1 g2 p x = .ret (h2, p2) ∧ elems h2 p2 = elems h p ++ [x] ∧
      elems h2 q = x :: (elems h q).tail := by
  have w := w.wins o hl
  have hn := w.next hp hq
  obtain ⟨a1, a2, a3, a4⟩ := w.get hp
  obtain ⟨b1, b2, b3, b4⟩ := w.get hq
  have oo := o.le
  have hpc := a4 o.le
  have hqc := b4 o.le
  have hlt : s.arr < h.brk := o.lt (by omega)
  have hcl : clamp2 (p.len : Int) (p.len : Int) (p.len : Int) = ((p.len : Int), (p.len : Int)) := by
    unfold clamp2 clamp
    simp
  have hrun : push h g1 g2 p x = .ret
      (((h.alloc [x] 0).1).blit p.arr (p.off + p.len) [x], ⟨p.arr, p.off, p.len + 1, p.cap⟩) := by
    simp only [push, Slicex.insert, expand, splice, hcl]
    rw [reslice_ret (by omega) (by omega) (by omega), reslice_ret (by omega) (by omega) (by omega)]
    simp only [Outcome.bind_ret, Int.toNat_zero, Nat.add_zero, Nat.sub_zero, Int.toNat_natCast, Int.sub_zero,
      Int.sub_self]
    have hz : ∀ (k : Hp T) (a b c : Nat), elems k ⟨a, b, 0, c⟩ = [] := fun _ _ _ _ => rfl
    rw [hz]
    have hap : append (h.alloc [x] 0).1 g1 (h.alloc [x] 0).2 [] =
        (((h.alloc [x] 0).1).blit (h.alloc [x] 0).2.arr ((h.alloc [x] 0).2.off + (h.alloc [x] 0).2.len) [],
          (h.alloc [x] 0).2) := by
      unfold append
      rw [if_pos (by simp [Hp.alloc])]
      rfl
    have hbl : ∀ (k : Hp T) (a b : Nat), k.blit a b [] = k := by
      intro k a b
      cases k
      simp [Hp.blit]
    rw [hap, hbl]
    simp only
    rw [alloc_elems]
    unfold append
    rw [if_pos (by simp only [List.length_singleton]; omega)]
    simp
  refine ⟨_, _, hrun, ?_, ?_⟩
  · refine elems_ext (by simp) (fun k hk => ?_)
    simp only at hk ⊢
    by_cases hkl : k < p.len
    · rw [List.getElem?_append_left (by simpa using hkl), elems_getElem?, if_pos hkl,
        blit_out _ _ _ _ _ _ (by omega), alloc_out _ _ _ _ _ (by omega)]
    · have : k = p.len := by omega
      subst this
      rw [blit_in _ _ _ _ _ x (by omega) (by simp)]
      simp
  · refine elems_ext (by simp; omega) (fun k hk => ?_)
    cases k with
    | zero => rw [b1, ← a1, hn, Nat.add_zero, blit_in _ _ _ _ _ x (by omega) (by simp)]; simp
    | succ k =>
      rw [List.getElem?_cons_succ, List.getElem?_tail, elems_getElem?, if_pos hk,
        blit_out _ _ _ _ _ _ (by simp; omega), alloc_out _ _ _ _ _ (by omega)]

/-! ## Concrete cases -/

/-- A memory with the array `1 2 3 4 5`. -/
def mem0 : Hp Nat := ⟨fun _ i => i + 1, 1⟩

/-- All five elements. -/
def five : Sl := ⟨0, 0, 5, 5⟩

theorem five_ok : five.Ok mem0 := ⟨by decide, fun _ => by decide⟩

/-- The pieces `[1 2] [3 4] [5]`. -/
def parts : List Sl := [⟨0, 0, 2, 5⟩, ⟨0, 2, 2, 3⟩, ⟨0, 4, 1, 1⟩]

theorem parts_batch : Pieces five parts := .batch 2 rfl

theorem parts_split : Pieces five parts := .split [2, 2] (by decide) (Or.inr (by decide)) rfl

example : parts.map (elems mem0) = [[1, 2], [3, 4], [5]] := by decide

/-- `Reverse` and then `Pop` on the first piece: the others are as they were, and the premises of
`C111_partial` hold. -/
example : ∃ h1 h2 p2, Used Call.Tame mem0 parts h1 parts ∧ act h1 ⟨0, 0, 2, 5⟩ (.pop 0 0) = .ret (h2, p2) ∧
    elems h2 p2 = [2] ∧ elems h2 ⟨0, 2, 2, 3⟩ = [3, 4] ∧ elems h2 ⟨0, 4, 1, 1⟩ = [5] :=
  ⟨_, _, _, .step (i := 0) (p := ⟨0, 0, 2, 5⟩) (c := .reverse) .start rfl trivial rfl, rfl, by decide, by decide, by decide⟩

/-- `Push 9` on the first piece: the second now shows `9 4`. -/
example : ∃ h2 p2, act mem0 ⟨0, 0, 2, 5⟩ (.push 9 0 0) = .ret (h2, p2) ∧ elems h2 p2 = [1, 2, 9] ∧
    elems h2 ⟨0, 2, 2, 3⟩ = [9, 4] ∧ elems h2 ⟨0, 4, 1, 1⟩ = [5] := ⟨_, _, rfl, by decide, by decide, by decide⟩

/-- `Rotate 1` on the first piece, which adds nothing, does it too. -/
theorem C111_rotate : ∃ h2 p2, act mem0 ⟨0, 0, 2, 5⟩ (.rotate 1 0) = .ret (h2, p2) ∧ elems h2 p2 = [2, 1] ∧
    elems h2 ⟨0, 2, 2, 3⟩ = [1, 4] := ⟨_, _, rfl, by decide, by decide⟩

/-- A call on the last piece, whatever it is, changes no other: here `Push`, which finds no capacity left. -/
example : ∃ h2 p2, act mem0 ⟨0, 4, 1, 1⟩ (.push 9 0 0) = .ret (h2, p2) ∧ elems h2 p2 = [5, 9] ∧
    elems h2 ⟨0, 2, 2, 3⟩ = [3, 4] := ⟨_, _, rfl, by decide, by decide⟩

/-- **C111 is false**: `Push` on the first of the pieces `[1 2] [3 4] [5]` changes the second; so does
`Rotate` (`C111_rotate`). -/
theorem C111_refuted : ¬ C111_full := by
  intro hf
  have := hf mem0 five parts five_ok (by decide) parts_batch mem0 parts .start 0 ⟨0, 0, 2, 5⟩ (.push 9 0 0) _ _ rfl trivial
    rfl 1 ⟨0, 2, 2, 3⟩ (by decide) rfl
  revert this
  decide

/-- Even without the calls that add elements the claim with `Rotate` allowed is false. -/
theorem C111_rotate_refuted : ¬ Separate (T := Nat) (fun c => c.Tame ∨ ∃ n g, c = .rotate n g) := by
  intro hf
  have := hf mem0 five parts five_ok (by decide) parts_batch mem0 parts .start 0 ⟨0, 0, 2, 5⟩ (.rotate 1 0) _ _ rfl
    (Or.inr ⟨1, 0, rfl⟩) rfl 1 ⟨0, 2, 2, 3⟩ (by decide) rfl
  revert this
  decide

/-- Negative sizes: `Split(2, -1)` gives the pieces `[1 2] [2] [2 3 4 5]`, which show common memory even without
spare capacity; this is why `Pieces` excludes them. -/
example : ∃ r, split five [2, -1] = .ret r ∧ r.map (elems mem0) = [[1, 2], [2], [2, 3, 4, 5]] := ⟨_, rfl, by decide⟩

end Verif.SliceParts
