import Verif.SliceSide.Lemmas
/-!
# C150: slices made by themselves do not affect each other
-/
namespace Verif.SliceSide
open Verif.Go Verif.Slicex Verif.SliceAll

variable {T : Type} [Inhabited T]

/-- **C150.** In a program that makes its slices with `New` and `Copy`, a call on one changes nothing another shows. -/
def C150_full : Prop := ∀ (lim : Nat) (t : List (Cmd Nat × Res Nat)) (w w' : World Nat) (cmd : Cmd Nat) (r : Res Nat),
  Run lim (fun _ _ => True) start t w → Step lim w cmd r w' → ∀ j, j ≠ cmd.about → shown w' j = shown w j

/-- **C150 is false of the code**: `New(x...)` takes over the memory of `x`. After `Set` through the one, the other has changed. -/
theorem C150_refuted : ¬ C150_full := by
  intro H
  have := H 1000 [(.new 0 [1, 2], .done), (.newOf 1 0, .done)] _ _ (.call 0 (.set 0 5)) .done
    (.cons trivial .new (.cons trivial .newOf (.nil _)))
    (.call ⟨0, 0, fun _ => 0, fun _ => 0⟩ rfl) 1 (by decide)
  exact absurd this (by decide)

/-- **C150, what does hold**: after a program without `New(x...)`, with any arguments, in any order, a command changes nothing that
any other variable shows. Missing from the full claim: what comes after `New(x...)`. -/
theorem C150_partial (lim : Nat) {t : List (Cmd T × Res T)} {w w' : World T} {cmd : Cmd T} {r : Res T}
    (rn : Run lim (fun _ c => c.Plain) start t w) (st : Step lim w cmd r w') : ∀ j, j ≠ cmd.about → shown w' j = shown w j := by
  obtain ⟨gd, ap⟩ := run_good (fun _ _ h => h) start_good start_apart rn
  exact step_leaves gd ap st

/-- **C150, one call**: in any memory, a call with any arguments leaves alone every slice that has no array in common with its own
up to their capacities, and the two have none in common after it. -/
theorem C150_call (lim : Nat) (c : Choice) {h h' : Hp T} {s s' t : Sl} (os : s.Ok h) (ot : t.Ok h) {op : Op T} {r : Res T}
    (hd : Apart s t) (e : step lim c (h, s) op = .ret ((h', s'), r)) :
    elems h' t = elems h t ∧ Apart s' t ∧ s'.Ok h' ∧ t.Ok h' :=
  have ow := step_own os e
  ⟨(ow.other ot hd).1, (ow.other ot hd).2, ow.ok, ot.mono ow.brk⟩

/-- **C150, as lists**: as long as arguments do not overflow (`Fits`), all variables together are a family of lists. -/
theorem C150_lists (lim : Nat) (hlim : (lim : Int) < 2 ^ 63) {t : List (Cmd T × Res T)} {w w' : World T} (gd : Good w) (ap : AllApart w)
    (rn : Run lim (fun w c => c.Plain ∧ Fits w c) w t w') : Lists lim (shown w) t (shown w') := by
  induction rn with
  | nil => exact .nil _
  | cons hk st _ ih =>
    obtain ⟨h1, h2, _⟩ := step_others gd ap hk.1 st
    exact .cons (step_about hlim gd ap hk.2 st) (ih h1 h2)

/-- **C150, from the start**: and the next command, `New(x...)` too, does what it does to lists. -/
theorem C150_program (lim : Nat) (hlim : (lim : Int) < 2 ^ 63) {t : List (Cmd T × Res T)} {w : World T}
    (rn : Run lim (fun w c => c.Plain ∧ Fits w c) start t w) :
    Lists lim (fun _ => []) t (shown w) ∧
    ∀ cmd r w', Fits w cmd → Step lim w cmd r w' → Does lim (shown w) cmd r (shown w') := by
  obtain ⟨gd, ap⟩ := run_good (fun _ _ h => h.1) start_good start_apart rn
  exact ⟨C150_lists lim hlim start_good start_apart rn, fun cmd r w' ft st => step_about hlim gd ap ft st⟩

/-- **C150, no command gets stuck**: in a state of such a program a command that fits goes through, unless it is a call that panics on
the list too. -/
theorem C150_next (lim : Nat) (hlim : (lim : Int) < 2 ^ 63) {t : List (Cmd T × Res T)} {w : World T}
    (rn : Run lim (fun _ c => c.Plain) start t w) (cmd : Cmd T) (pl : cmd.Plain) (ft : Fits w cmd)
    (hp : ∀ i op, cmd = .call i op → ¬ Panics lim (shown w i) op) : ∃ r w', Step lim w cmd r w' := by
  obtain ⟨gd, ap⟩ := run_good (fun _ _ h => h) start_good start_apart rn
  cases cmd with
  | call i op =>
    obtain ⟨x, r, e, _⟩ := step_good lim hlim ⟨0, 0, fun _ => 0, fun _ => 0⟩ (gd i) ft.1 op ft.2.1 ft.2.2 (hp i op rfl)
    exact ⟨r, _, .call _ e⟩
  | new i vs => exact ⟨_, _, .new⟩
  | copy i j => exact ⟨_, _, .copy 0⟩
  | newOf i j => exact pl.elim
  | spliceFrom i a b k =>
    have hv : w.s k = w.s i ∨ Apart (w.s i) (w.s k) := by
      by_cases hk : k = i
      · exact .inl (by rw [hk])
      · exact .inr (ap i k (Ne.symm hk))
    obtain ⟨h1, s1, e1, _⟩ := splice_from (gd i) 0 0 a b hv
    exact ⟨_, _, .spliceFrom 0 0 e1⟩

/-- Three slices: `x = New(1, 2)`, `y = x.Copy()`, `y.Push(3)`, `x.Splice(1, 1, y...)`, `y.Set(0, 9)`, `x.Shift()`. -/
example : ∃ w, Run 1000 (fun w c => c.Plain ∧ Fits w c) (start : World Nat)
    [(.new 0 [1, 2], .done), (.copy 1 0, .done), (.call 1 (.push 3), .done), (.spliceFrom 0 1 1 1, .done),
      (.call 1 (.set 0 9), .done), (.call 0 .shift, .val 1)] w ∧ shown w 0 = [1, 2, 3, 2] ∧ shown w 1 = [9, 2, 3] := by
  refine ⟨_, .cons ⟨trivial, trivial⟩ .new (.cons ⟨trivial, trivial⟩ (.copy 4) (.cons ⟨trivial, by decide, trivial, trivial⟩
    (.call ⟨0, 0, fun _ => 0, fun _ => 0⟩ rfl) (.cons ⟨trivial, trivial⟩ (.spliceFrom 0 2 rfl) (.cons ⟨trivial, by decide,
    (show InInt64 _ by decide), trivial⟩ (.call ⟨0, 0, fun _ => 0, fun _ => 0⟩ rfl) (.cons ⟨trivial, by decide, trivial, trivial⟩
    (.call ⟨0, 0, fun _ => 0, fun _ => 0⟩ rfl) (.nil _)))))), by decide, by decide⟩

end Verif.SliceSide
