import Verif.SliceUndo.Lemmas
/-!
# C146: edits of a slice can be taken back
-/
namespace Verif.SliceUndo
open Verif.Go Verif.Slicex Verif.SliceAll

variable {T : Type} [Inhabited T] {lim : Nat}

theorem edits_safe (hlim : (lim : Int) < 2 ^ 63) {w w' : Hp T × Sl} {u : List (Op T)} (o : w.2.Ok w.1)
    (hl : (w.2.len : Int) < 2 ^ 63) (h : Edits lim w u w') :
    w'.2.Ok w'.1 ∧ (w'.2.len : Int) < 2 ^ 63 ∧ Safe lim (elems w'.1 w'.2) u (elems w.1 w.2) := by
  induction h with
  | nil => exact ⟨o, hl, .nil _⟩
  | @edit u w' w'' op r c _ ht hf hs hl'' ih =>
    obtain ⟨o', hl', sf⟩ := ih
    rcases C127_step lim hlim c w'.1 w'.2 o' hl' op ht hf with ⟨_, hp⟩ | ⟨h2, s2, r2, e, o2, hp, he⟩
    · rw [show (w'.1, w'.2) = w' from rfl, hs] at hp; cases hp
    · rw [show (w'.1, w'.2) = w' from rfl, hs] at e
      cases e
      refine ⟨o2, hl'', Safe.append (undo_safe ht ?_ hp ?_ ?_ he) sf⟩
      · rw [elems_length]; exact hf
      · rw [elems_length]; exact hl'
      · rw [elems_length]; exact hl''

/-- **C146.** After any calls of the methods, in any order, with any arguments that do not overflow, the calls written down return one
after the other, whatever the run time chooses, and the slice holds what it held. -/
theorem C146_undo (hlim : (lim : Int) < 2 ^ 63) {w w' : Hp T × Sl} {u : List (Op T)} (o : w.2.Ok w.1)
    (hl : (w.2.len : Int) < 2 ^ 63) (h : Edits lim w u w') (cs : Nat → Choice) :
    ∃ w'', runOps lim cs w' u = .ret w'' ∧ elems w''.1 w''.2 = elems w.1 w.2 ∧ w''.2.Ok w''.1 :=
  run_safe hlim (edits_safe hlim o hl h).2.2 cs w' (edits_safe hlim o hl h).1 rfl

/-- Taking back only the newest edits gives what was there before them: the list of a history begins with that of its newest part. -/
theorem C146_back {w w' w'' : Hp T × Sl} {u v : List (Op T)} (h : Edits lim w u w') (h' : Edits lim w' v w'') :
    Edits lim w (v ++ u) w'' := by
  induction h' with
  | nil => exact h
  | edit c _ ht hf hs hl ih => rw [List.append_assoc]; exact .edit c ih ht hf hs hl

/-- `Delete(i)` takes `Insert(i, v)` back exactly if `i` is in range; for other indices it leaves the inserted element (and for the
largest `int` see C127). -/
theorem C146_same_index (hlim : (lim : Int) < 2 ^ 63) (w : Hp T × Sl) (o : w.2.Ok w.1) (hl : (w.2.len : Int) + 1 < 2 ^ 63)
    (i : Int) (hi : InInt64 i) (hm : i ≠ 2 ^ 63 - 1) (v : T) (cs : Nat → Choice) :
    ∃ w', runOps lim cs w [.insert i v, .delete i] = .ret w' ∧
      (elems w'.1 w'.2 = elems w.1 w.2 ↔ 0 ≤ i ∧ i ≤ w.2.len) := by
  have hb := bound_le i (elems w.1 w.2).length
  have hlen := List.length_insertIdx_of_le_length hb v
  have hE : (elems w.1 w.2).length = w.2.len := elems_length _ _
  have sf : Safe lim (elems w.1 w.2) [.insert i v, .delete i]
      (deleteSpec ((elems w.1 w.2).insertIdx (bound i (elems w.1 w.2).length) v) i) :=
    .cons (by omega) hi trivial (fun h => h) (fun x r e => e.1)
      (one (by rw [hlen]; push_cast; omega) hi hm (fun h => h) (fun x r e => e.1))
  obtain ⟨w', e, e1, _⟩ := run_safe hlim sf cs w o rfl
  refine ⟨w', e, ?_⟩
  rw [e1]
  constructor
  · intro h
    by_contra hn
    have : (deleteSpec ((elems w.1 w.2).insertIdx (bound i (elems w.1 w.2).length) v) i).length = (elems w.1 w.2).length + 1 := by
      rw [deleteSpec]
      split
      · rw [List.eraseIdx_of_length_le (by rw [hlen]; omega), hlen]
      · exact hlen
    rw [h] at this
    omega
  · rintro ⟨h0, h1⟩
    have : bound i (elems w.1 w.2).length = i.toNat := by simp only [bound]; omega
    rw [deleteSpec, if_pos h0, this, List.eraseIdx_insertIdx_self]

/-- What is written down for some calls on `[1, 2, 3]`. -/
example : undo [1, 2, 3] (.splice 2 0 [9] : Op Nat) = [.splice 0 1 [1, 2]] ∧
    undo [1, 2, 3] (.slice 1 2 : Op Nat) = [.expand 0 [1], .expand 2 [3]] ∧
    undo [1, 2, 3] (.deleteReplace 0 : Op Nat) = [.push 3, .set 0 1] ∧
    undo [1, 2, 3] (.insert 100 7 : Op Nat) = [.delete 3] := by
  refine ⟨rfl, rfl, rfl, rfl⟩

/-- A short session on an empty slice: two calls, and what takes them back. -/
example (c : Choice) : ∃ w' : Hp Nat × Sl, Edits 1000 (mem0, sl0) [.reverse, .pop] w' ∧ elems w'.1 w'.2 = (elems mem0 sl0 ++ [5]).reverse := by
  rcases C127_step 1000 (by decide) c mem0 sl0 sl0_ok (by decide) (.push 5) trivial trivial with ⟨h, _⟩ | ⟨h1, s1, r1, e1, o1, _, he1⟩
  · exact absurd h (fun h => h)
  have l1 : s1.len = sl0.len + 1 := by
    have := congrArg List.length he1.1
    simpa using this
  have d0 : sl0.len ≤ 10 := by decide
  rcases C127_step 1000 (by decide) c h1 s1 o1 (by omega) .reverse trivial trivial with ⟨h, _⟩ | ⟨h2, s2, r2, e2, o2, _, he2⟩
  · exact absurd h (fun h => h)
  have l2 : s2.len = s1.len := by
    have := congrArg List.length he2.1
    simpa using this
  refine ⟨(h2, s2), ?_, by rw [he2.1, he1.1]⟩
  have a := Edits.edit (w := (mem0, sl0)) (op := .push 5) c .nil trivial trivial e1 (by dsimp only; omega)
  have b := Edits.edit (op := .reverse) c a trivial trivial e2 (by dsimp only; omega)
  exact b

end Verif.SliceUndo
