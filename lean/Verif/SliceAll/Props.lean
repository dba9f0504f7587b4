import Verif.SliceAll.Lemmas
/-!
# C127: a slice under any sequence of calls is a list
-/
namespace Verif.SliceAll
open Verif.Go Verif.Slicex

variable {T : Type} [Inhabited T]

/-- **C127.** Whatever the calls on one slice, in any order, with any `int`s, what they show and the
elements at the end are those of the list operations. -/
def C127_full : Prop := ∀ (lim : Nat), (lim : Int) < 2 ^ 63 → ∀ (w w' : Hp Nat × Sl) (t : List (Op Nat × Res Nat)),
  w.2.Ok w.1 → Hist lim (fun _ op => op.Typed) w t w' → Seq lim (elems w.1 w.2) t (elems w'.1 w'.2)

/-- **C127 is false of the code**: after `Delete` of the largest `int`, which names no element, the
slice is empty. -/
theorem C127_refuted : ¬ C127_full := by
  intro H
  have hst : ∃ w', step 1000 ⟨0, 0, fun _ => 0, fun _ => 0⟩ (mem0, sl0) (.delete (2 ^ 63 - 1)) = .ret (w', .done) ∧
      elems w'.1 w'.2 = [] := by
    obtain ⟨h', s', e, he⟩ := C21_refuted (T := Nat).2 mem0 0 0 sl0 sl0_ok
    refine ⟨(h', s'), ?_, (he (by decide)).1⟩
    show unit (delete mem0 0 0 sl0 (2 ^ 63 - 1)) = _
    rw [e]
    rfl
  obtain ⟨w', e, he⟩ := hst
  have := H 1000 (by decide) (mem0, sl0) w' [(.delete (2 ^ 63 - 1), .done)] sl0_ok
    (.cons _ (by decide) (show InInt64 _ by decide) e (.nil _))
  cases this with
  | cons h1 h2 =>
    cases h2
    have h3 := h1.2.1
    rw [he, deleteSpec, if_pos (by decide), List.eraseIdx_of_length_le (by simp [sl0])] at h3
    exact absurd h3 (by decide)

/-- **C127, what does hold**: the same for every history whose arguments do not overflow (`Op.Fits`).
Missing from the full claim: `Delete` of the largest `int`, `Rotate` by the smallest, `Repeat` with a
count that makes the length overflow, and `Split` with negative or overflowing sizes. -/
theorem C127_partial (lim : Nat) (hlim : (lim : Int) < 2 ^ 63) {w w' : Hp T × Sl} {t : List (Op T × Res T)}
    (o : w.2.Ok w.1) (hist : Hist lim (fun n op => op.Typed ∧ op.Fits n) w t w') :
    Seq lim (elems w.1 w.2) t (elems w'.1 w'.2) ∧ w'.2.Ok w'.1 := by
  induction hist with
  | nil w => exact ⟨.nil _, o⟩
  | @cons w w1 w2 op r t c hl hok hs _ ih =>
    obtain ⟨h, s⟩ := w
    have hp : ¬ Panics lim (elems h s) op := fun hp => by
      rw [step_panics lim c o op hok.2 hp] at hs
      cases hs
    obtain ⟨w', r', e, o', he⟩ := step_good lim hlim c o hl op hok.1 hok.2 hp
    rw [e] at hs
    cases hs
    exact ⟨.cons ⟨hp, he⟩ (ih o').1, (ih o').2⟩

/-- **C127, one more call**: in any state a call panics exactly where the list reading says so, and
otherwise returns what that reading says; no call runs forever. -/
theorem C127_step (lim : Nat) (hlim : (lim : Int) < 2 ^ 63) (c : Choice) (h : Hp T) (s : Sl) (o : s.Ok h)
    (hl : (s.len : Int) < 2 ^ 63) (op : Op T) (ht : op.Typed) (hf : op.Fits s.len) :
    (Panics lim (elems h s) op ∧ step lim c (h, s) op = .panic) ∨
    (∃ h' s' r, step lim c (h, s) op = .ret ((h', s'), r) ∧ s'.Ok h' ∧ Does lim (elems h s) op (elems h' s') r) := by
  by_cases hp : Panics lim (elems h s) op
  · exact Or.inl ⟨hp, step_panics lim c o op hf hp⟩
  · obtain ⟨w', r, e, o', he⟩ := step_good lim hlim c o hl op ht hf hp
    exact Or.inr ⟨w'.1, w'.2, r, e, o', hp, he⟩

/-- **C127, what that leaves open**: only the order after `Shuffle`. -/
theorem C127_determined (lim : Nat) {l a b : List T} {t u : List (Op T × Res T)} (h1 : Seq lim l t a)
    (h2 : Seq lim l u b) (hops : t.map Prod.fst = u.map Prod.fst)
    (hs : ∀ p ∈ t, p.1 ≠ .shuffle) : t = u ∧ a = b := by
  induction h1 generalizing u b with
  | nil l =>
    cases h2 with
    | nil => exact ⟨rfl, rfl⟩
    | cons _ _ => simp at hops
  | @cons l l' a op r t d _ ih =>
    cases h2 with
    | nil => simp at hops
    | @cons _ m _ op' r' u d' h2 =>
      simp only [List.map_cons, List.cons.injEq] at hops
      obtain ⟨rfl, hops⟩ := hops
      have : l' = m ∧ r = r' := by
        have hns := hs (op, r) (by simp)
        have e1 := d.2
        have e2 := d'.2
        cases op
        case shuffle => exact absurd rfl hns
        case slice => exact ⟨e1.2.trans e2.2.symm, e1.1.trans e2.1.symm⟩
        case batch n =>
          obtain ⟨a1, p, rfl, a3, a4, a5⟩ := e1
          obtain ⟨b1, q, rfl, b3, b4, b5⟩ := e2
          exact ⟨a1.trans b1.symm, by rw [batch_unique p q (a3.trans b3.symm) a4 a5 b4 b5]⟩
        all_goals exact ⟨e1.1.trans e2.1.symm, e1.2.trans e2.2.symm⟩
      obtain ⟨rfl, rfl⟩ := this
      obtain ⟨rfl, rfl⟩ := ih h2 hops (fun p hp => hs p (List.mem_cons_of_mem _ hp))
      exact ⟨rfl, rfl⟩

/-- Three calls on the slice `[1, 2, 3]` of the examples in `Verif.Slicex.Props`. -/
example : ∃ w', Hist 1000 (fun n op => op.Typed ∧ op.Fits n) (mem0, sl0)
    [(.rotate (-1), .done), (.splice 1 2 [7, 8], .done), (.pop, .val 2)] w' ∧ elems w'.1 w'.2 = [3, 7, 8] := by
  refine ⟨_, .cons ⟨0, 0, fun _ => 0, fun _ => 0⟩ (by decide) ⟨show InInt64 _ by decide, show (-1 : Int) ≠ _ by decide⟩ rfl
    (.cons ⟨0, 0, fun _ => 0, fun _ => 0⟩ (by decide) ⟨⟨by decide, by decide⟩, trivial⟩ rfl
    (.cons ⟨0, 0, fun _ => 0, fun _ => 0⟩ (by decide) ⟨trivial, trivial⟩ rfl (.nil _))), by decide⟩

end Verif.SliceAll
