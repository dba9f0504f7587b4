import Verif.CloseNest.Lemmas
/-!
# Property C120: close managers in close managers
-/
namespace Verif.CloseNest
open Verif.CloseMgr Verif.Go

variable {n : Nat} {W : Type}

/-- **C120 (full statement).** `Close` of a manager returns; every closer below it, also below managers
registered with it, was called, in the order of registration; and the error list has exactly their errors. -/
def C120_full : Prop := ∀ (n : Nat) (W : Type) (g : Fin n → List (Item n W)) (m : Fin n) (w : W),
  ∃ ls, Unfolds g (g m) ls ∧ closeMgr g ∅ m w = .ret (errorsOf ls w)

/-- **C120, when it ends.** `Close` returns if and only if neither the manager nor a manager below it is below
itself; otherwise it waits for ever. -/
theorem C120_ends (g : Fin n → List (Item n W)) (m : Fin n) (w : W) :
    ((∃ r, closeMgr g ∅ m w = .ret r) ↔ Acyclic g [.mgr m]) ∧
    (closeMgr g ∅ m w = .hang ↔ ¬ Acyclic g [.mgr m]) := by
  have h1 : (∃ r, closeMgr g ∅ m w = .ret r) ↔ Acyclic g [.mgr m] := by
    rw [mgr_free w (by simp)]
    constructor
    · rintro ⟨⟨es, w'⟩, h⟩
      obtain ⟨ls, u, -⟩ := loop_ret flats flats_append (by simp [flats, flat]) _ _ _ _ _ _ h
      exact unfolds_acyclic (.mgr u .nil)
    · intro h
      refine loop_acyclic _ _ _ _ (fun k b => h k (.there (List.mem_cons_self ..) b)) ?_
      intro k hk m' h'
      obtain rfl : k = m := by simpa using hk
      exact .here h'
  refine ⟨h1, ?_⟩
  rw [← h1]
  have h2 : closeMgr g ∅ m w ≠ .panic := by rw [mgr_free w (by simp)]; exact loop_no_panic _ _ _ _
  cases h : closeMgr g ∅ m w with
  | ret r => simp
  | panic => exact absurd h h2
  | hang => simp

/-- **C120, as far as it goes.** If no manager is below itself, `Close` calls every closer below the manager in
order, once for each way down to it; asking `AsErrs` again and again yields exactly the closers' errors, in
order; the text of the error has the texts of the errors, in order. -/
theorem C120_partial (g : Fin n → List (Item n W)) (m : Fin n) (h : Acyclic g [.mgr m]) (w : W) :
    ∃ ls es, Unfolds g (g m) ls ∧ closeMgr g ∅ m w = .ret (es, (errorsOf ls w).2) ∧
      flat (.list es) = flats (errorsOf ls w).1 ∧
      ∀ t : Texts, InOrder ((partsAll (errorsOf ls w).1).map (text t)) (text t (.list es)) := by
  obtain ⟨⟨es, w'⟩, e⟩ := (C120_ends g m w).1.2 h
  have e' := e
  rw [mgr_free w (by simp)] at e'
  obtain ⟨ls, u, rfl, h1⟩ := loop_ret flats flats_append (by simp [flats, flat]) _ _ _ _ _ _ e'
  obtain ⟨ls', u', -, h2⟩ := loop_ret partsAll partsAll_append (by simp [partsAll, parts]) _ _ _ _ _ _ e'
  obtain rfl := unfolds_unique u u'
  refine ⟨ls, es, u, e, by simpa [flat, flats] using h1, fun t => ?_⟩
  have := text_parts t (.list es)
  rw [parts, h2] at this
  simpa [partsAll] using this

/-- `flat` is `AsErrs`, again and again. -/
theorem C120_flat (e : Err) : (asErrs (some e) = none → flat e = [e]) ∧
    ∀ es, asErrs (some e) = some es → flat e = es.flatMap flat := by
  have hf : ∀ es, flats es = es.flatMap flat := by
    intro es
    induction es with
    | nil => rfl
    | cons e es ih => simp [flats, ih]
  exact ⟨(flat_asList e).1, fun es h => by rw [← hf]; exact (flat_asList e).2 es h⟩

/-- When the report is empty: no manager is registered and no closer failed. So one manager in a manager is
always reported as failed. -/
theorem C120_empty (g : Fin n → List (Item n W)) (m : Fin n) (w : W) {es : List Err} {w' : W}
    (h : closeMgr g ∅ m w = .ret (es, w')) :
    es = [] ↔ ∃ cs, g m = cs.map Item.leaf ∧ (errorsOf cs w).1 = [] := by
  rw [mgr_free w (by simp)] at h
  simpa using loop_length _ _ _ _ _ _ h

/-- The same for `usingx.Close`: nil is returned if and only if no manager is among the closers and none failed. -/
theorem C120_using (g : Fin n → List (Item n W)) (is : List (Item n W)) (w : W) {r : Option (List Err)} {w' : W}
    (h : using_ g is w = .ret (r, w')) :
    r = none ↔ ∃ cs, is = cs.map Item.leaf ∧ (errorsOf cs w).1 = [] := by
  unfold using_ at h
  split at h
  · next errs w1 e =>
    simp only [Outcome.ret.injEq, Prod.mk.injEq] at h
    obtain ⟨rfl, rfl⟩ := h
    have := loop_length _ _ _ _ _ _ e
    simp only [true_and] at this
    rw [← this]
    cases errs <;> simp
  · simp at h
  · simp at h

/-! ## Cases -/

/-- A closer that logs its number and fails with it or not. -/
def logged (i : Nat) (fails : Bool) : List Nat → Option Err × List Nat :=
  fun log => (if fails then some (.plain i) else none, log ++ [i])

/-- Manager 0 has a closer, manager 1 twice, and another closer; manager 1 has a closer. -/
def diamond : Fin 2 → List (Item 2 (List Nat))
  | 0 => [.leaf (logged 0 true), .mgr 1, .mgr 1, .leaf (logged 1 false)]
  | 1 => [.leaf (logged 2 true)]

theorem diamond_unfolds : Unfolds diamond (diamond 0) [logged 0 true, logged 2 true, logged 2 true, logged 1 false] :=
  .leaf (.mgr (ls := [logged 2 true]) (.leaf .nil) (.mgr (ls := [logged 2 true]) (.leaf .nil) (.leaf .nil)))

example : Acyclic diamond [.mgr 0] := unfolds_acyclic (.mgr diamond_unfolds .nil)

/-- An empty manager in a manager. -/
def inner : Fin 2 → List (Item 2 Unit)
  | 0 => [.mgr 1]
  | 1 => []

/-- A manager in itself. -/
def self : Fin 1 → List (Item 1 Unit) := fun _ => [.mgr 0]

/-- **C120 is false**: an empty manager in a manager is reported as an error; a manager registered twice is closed
twice; a manager in itself waits for itself for ever. -/
theorem C120_refuted : ¬ C120_full ∧
    closeMgr inner ∅ 0 () = .ret ([.list []], ()) ∧
    closeMgr diamond ∅ 0 [] = .ret ([.plain 0, .list [.plain 2], .list [.plain 2]], [0, 2, 2, 1]) ∧
    closeMgr self ∅ 0 () = .hang := by
  have h1 : closeMgr self ∅ 0 () = .hang := by
    rw [mgr_free _ (by simp)]
    show closeLoop _ _ [.mgr 0] _ _ = _
    rw [loop_mgr, mgr_locked _ (by simp)]
  refine ⟨fun h => ?_, ?_, ?_, h1⟩
  · obtain ⟨ls, -, e⟩ := h 1 Unit self 0 ()
    rw [h1] at e
    simp at e
  · rw [mgr_free _ (by simp)]
    show closeLoop _ _ [.mgr 1] _ _ = _
    rw [loop_mgr, mgr_free _ (by decide), show inner 1 = [] from rfl, loop_nil]
    simp [loop_nil]
  · have e1 : ∀ l w, 1 ∉ l → closeMgr diamond l 1 w = .ret ([.plain 2], w ++ [2]) := by
      intro l w hl
      rw [mgr_free _ hl]
      show closeLoop _ _ [.leaf (logged 2 true)] _ _ = _
      rw [loop_leaf, loop_nil]
      rfl
    rw [mgr_free _ (by simp)]
    show closeLoop _ _ [.leaf (logged 0 true), .mgr 1, .mgr 1, .leaf (logged 1 false)] _ _ = _
    rw [loop_leaf, loop_mgr, e1 _ _ (by decide)]
    simp only []
    rw [loop_mgr, e1 _ _ (by decide)]
    simp only []
    rw [loop_leaf, loop_nil]
    rfl

end Verif.CloseNest
