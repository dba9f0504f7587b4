import Verif.SlicePanic.Lemmas
/-!
# C95: a callback of `Filter` that panics
-/
namespace Verif.SlicePanic
open Verif.Go

variable {T : Type}

/-- The full statement: when the callback panics, the slice is what it was. -/
def C95_full : Prop := ∀ (f : Nat → Option Bool) (h : Hp Nat) (s : Sl), s.Ok h → (filter f h s).1 = false →
  elems (filter f h s).2.1 (filter f h s).2.2 = elems h s

/-- [1, 2, 3], where 1 is dropped, 2 is kept and 3 panics, becomes [2, 2, 3]: 1 is lost, 2 is there twice. -/
theorem C95_refuted : ¬ C95_full ∧ ∃ (h : Hp Nat) (s : Sl), s.Ok h ∧ elems h s = [1, 2, 3] ∧
    (filter (fun x => if x = 3 then none else some (decide (x = 2))) h s).1 = false ∧
    elems (filter (fun x => if x = 3 then none else some (decide (x = 2))) h s).2.1
      (filter (fun x => if x = 3 then none else some (decide (x = 2))) h s).2.2 = [2, 2, 3] := by
  have h1 : (⟨0, 0, 3, 3⟩ : Sl).Ok (⟨fun _ i => i + 1, 1⟩ : Hp Nat) := ⟨Nat.le_refl _, fun _ => Nat.one_pos⟩
  refine ⟨fun hc => ?_, ⟨fun _ i => i + 1, 1⟩, ⟨0, 0, 3, 3⟩, h1, rfl, rfl, rfl⟩
  have := hc (fun x => if x = 3 then none else some (decide (x = 2))) _ _ h1 rfl
  exact absurd this (by decide)

/-- What a panic leaves, exactly: `pre` are the elements before the one at which the callback panics. The slice
has its old length; it begins with the elements of `pre` that were kept, and from there on it is as it was. No
other memory is written. Missing: the elements in between, which are overwritten. -/
theorem C95_exact_partial (f : T → Option Bool) (h : Hp T) (s : Sl) {pre post : List T} {x : T}
    (he : elems h s = pre ++ x :: post) (hp : ∀ y ∈ pre, ∃ b, f y = some b) (hx : f x = none) :
    let r := filter f h s
    let kept := pre.filter (fun y => f y == some true)
    r.1 = false ∧ r.2.2 = s ∧ elems r.2.1 s = kept ++ (elems h s).drop kept.length ∧
    ∀ b m, (b ≠ s.arr ∨ m < s.off ∨ s.off + s.len ≤ m) → r.2.1.mem b m = h.mem b m := by
  intro r kept
  obtain ⟨h', e1, e2, e3⟩ := loop_panic (s := s) hx pre s.len 0 0 h (by omega) (by omega) (by simpa using he) hp
  have er : r = (false, h', s) := by simp only [r, filter, e1]
  rw [er]
  refine ⟨rfl, rfl, ?_, e3⟩
  rw [e2]
  simp only [List.take_zero, List.nil_append, Nat.zero_add]
  rfl

/-- So the slice is unchanged if every element before the panic was kept. -/
theorem C95_all_kept (f : T → Option Bool) (h : Hp T) (s : Sl) {pre post : List T} {x : T}
    (he : elems h s = pre ++ x :: post) (hp : ∀ y ∈ pre, f y = some true) (hx : f x = none) :
    (filter f h s).2.2 = s ∧ elems (filter f h s).2.1 s = elems h s := by
  obtain ⟨-, h2, h3, -⟩ := C95_exact_partial f h s he (fun y hy => ⟨true, hp y hy⟩) hx
  refine ⟨h2, ?_⟩
  rw [h3, List.filter_eq_self.2 (fun y hy => by simp [hp y hy]), he]
  simp

/-- And what was not visited yet is never damaged: the element at which the callback panicked and all after it
are in place. -/
theorem C95_rest_kept (f : T → Option Bool) (h : Hp T) (s : Sl) {pre post : List T} {x : T}
    (he : elems h s = pre ++ x :: post) (hp : ∀ y ∈ pre, ∃ b, f y = some b) (hx : f x = none) :
    (elems (filter f h s).2.1 s).drop pre.length = x :: post := by
  obtain ⟨-, -, h3, -⟩ := C95_exact_partial f h s he hp hx
  have hl : (pre.filter (fun y => f y == some true)).length ≤ pre.length := List.length_filter_le _ _
  rw [h3, List.drop_append, List.drop_of_length_le hl, List.drop_drop, he, Nat.add_sub_cancel' hl]
  simp

/-- If the callback never panics, this `Filter` keeps exactly what it says yes to (as C25). -/
theorem C95_returns (f : T → Option Bool) (h : Hp T) (s : Sl) (hp : ∀ y ∈ elems h s, ∃ b, f y = some b) :
    (filter f h s).1 = true ∧
    elems (filter f h s).2.1 (filter f h s).2.2 = (elems h s).filter (fun y => f y == some true) := by
  obtain ⟨h', e1, e2⟩ := loop_ok (s := s) (elems h s) s.len 0 0 h (by omega) (by omega) rfl hp
  simp only [Nat.zero_add, List.take_zero, List.nil_append] at e1 e2
  have er : filter f h s = (true, h', { s with len := ((elems h s).filter (keeps f)).length }) := by
    simp only [filter, e1]
  rw [er]
  refine ⟨rfl, ?_⟩
  have hle : ((elems h s).filter (keeps f)).length ≤ s.len := by
    simpa using List.length_filter_le (keeps f) (elems h s)
  have := window_elems h' s 0 ((elems h s).filter (keeps f)).length s.cap hle
  simp only [Nat.add_zero, Nat.sub_zero, List.drop_zero] at this
  simp only
  rw [this, e2]
  rfl

example : elems (⟨fun _ i => i + 1, 1⟩ : Hp Nat) ⟨0, 0, 3, 3⟩ = [1, 2] ++ 3 :: [] ∧
    (∀ y ∈ [1, 2], ∃ b, (fun x : Nat => if x = 3 then none else some (decide (x = 2))) y = some b) ∧
    (fun x : Nat => if x = 3 then none else some (decide (x = 2))) 3 = none :=
  ⟨rfl, fun y hy => by simp at hy; rcases hy with rfl | rfl <;> exact ⟨_, rfl⟩, rfl⟩

end Verif.SlicePanic
