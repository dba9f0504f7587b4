import Verif.ClosePanic.Lemmas
/-!
# C94: closers that panic
-/
namespace Verif.ClosePanic

variable {W E P : Type}

/-- The full statement, for both packages: every closer is called, once and in order, whatever the others do. -/
def C94_full : Prop :=
  ∀ (rs : List (Except Unit (Option Unit))),
    (((run ((numbered 0 rs).map .append) new []).2.1).close []).2.2 = List.range rs.length ∧
    (using_ (numbered 0 rs) (fun log => (.ok (), log)) []).2 = List.range rs.length

/-- Three closers of which the second one panics: the third one is not closed; a second `Close` calls the first
one again and does not get further either; `usingx.Close` does the same. -/
theorem C94_refuted : ¬ C94_full ∧
    (run ((numbered 0 [.ok none, .error (), .ok none]).map .append ++ [.close, .close]) (new : Mgr (List Nat) Unit Unit) []).2.2 =
      [0, 1, 0, 1] ∧
    using_ (numbered 0 [.ok none, .error (), .ok none]) (fun log => (.ok (), log)) [] =
      ((.panic () : Res Unit (Option (List Unit))), [0, 1]) := by
  refine ⟨fun h => ?_, rfl, rfl⟩
  have := (h [.ok none, .error (), .ok none]).2
  exact absurd this (by decide)

/-- What holds of the manager, after every history of calls, panics included: the next `Close` calls the closers
appended so far in order until one panics. If none does it returns their errors. If one does, the ones before it
have been called once each, the ones after it have not, and the panic reaches the caller. Missing: the closers
after one that panics. -/
theorem C94_close_partial (ops : List (Op W P E)) (w0 w : W) :
    let m := (run ops new w0).2.1
    (NonePanics (appended ops) w → (m.close w).1 = .ret (errorsOf (appended ops) w) ∧
      (m.close w).2.2 = worldAfter (appended ops) w) ∧
    (∀ pre c post p, appended ops = pre ++ c :: post → NonePanics pre w → (c (worldAfter pre w)).1 = .error p →
      (m.close w).1 = .panic p ∧ (m.close w).2.2 = worldAfter (pre ++ [c]) w) ∧
    (NonePanics (appended ops) w ∨ ∃ pre c post p, appended ops = pre ++ c :: post ∧ NonePanics pre w ∧
      (c (worldAfter pre w)).1 = .error p) := by
  intro m
  have hm : m = ⟨false, appended ops⟩ := by simp only [m, run_mgr ops new w0 rfl, new, List.nil_append]
  refine ⟨fun h => ?_, fun pre c post p h1 h2 h3 => ?_, first_panic _ _⟩
  · simp [hm, Mgr.close, loop_ok _ _ _ h]
  · simp [hm, Mgr.close, h1, loop_panic _ _ _ _ _ _ h2 h3]

/-- The manager stays usable: in no history does a call wait for the lock, panics notwithstanding; and no closer
is dropped from it. -/
theorem C94_usable (ops : List (Op W P E)) (w : W) :
    (run ops (new : Mgr W P E) w).2.1 = ⟨false, appended ops⟩ ∧
    ∀ x ∈ (run ops (new : Mgr W P E) w).1, x ≠ .appended .hang ∧ x ≠ .closed .hang := by
  refine ⟨by rw [run_mgr ops new w rfl]; rfl, ?_⟩
  have key : ∀ (ops : List (Op W P E)) (m : Mgr W P E) (w : W), m.locked = false →
      ∀ x ∈ (run ops m w).1, x ≠ .appended .hang ∧ x ≠ .closed .hang := by
    intro ops
    induction ops with
    | nil => intro m w _ x hx; simp [run] at hx
    | cons o ops ih =>
      intro m w h x hx
      cases o with
      | append c =>
        simp only [run, Mgr.append, h, Bool.false_eq_true, if_false, List.mem_cons] at hx
        rcases hx with rfl | hx
        · simp
        · exact ih ⟨false, m.list ++ [c]⟩ w rfl x hx
      | close =>
        simp only [run, List.mem_cons] at hx
        rcases hx with rfl | hx
        · obtain ⟨l, cs⟩ := m
          simp only at h
          subst h
          cases hl : closeLoop cs [] w with
          | mk r w' => cases r <;> simp [Mgr.close, hl]
        · exact ih _ _ (by rw [close_mgr m h]; exact h) x hx
  exact key ops new w rfl

/-- `usingx.Close`, likewise: after the body, panicking or not, the closers are called in order until one panics;
its panic replaces the body's. Missing: the closers after it. -/
theorem C94_using_partial (cs : List (Closer W P E)) (f : W → Except P Unit × W) (w : W) :
    (NonePanics cs (f w).2 → (using_ cs f w).2 = worldAfter cs (f w).2 ∧
      (∀ p, (f w).1 = .error p → (using_ cs f w).1 = .panic p) ∧
      ((f w).1 = .ok () → (using_ cs f w).1 =
        .ret (match errorsOf cs (f w).2 with | [] => none | es => some es))) ∧
    (∀ pre c post p, cs = pre ++ c :: post → NonePanics pre (f w).2 → (c (worldAfter pre (f w).2)).1 = .error p →
      using_ cs f w = (.panic p, worldAfter (pre ++ [c]) (f w).2)) := by
  cases hf : f w with
  | mk r w' =>
    refine ⟨fun h => ?_, fun pre c post p h1 h2 h3 => ?_⟩
    · simp only at h
      cases r with
      | error p => simp [using_, hf, loop_ok _ _ _ h]
      | ok u =>
        simp only [using_, hf, loop_ok _ _ _ h, List.nil_append]
        cases errorsOf cs w' <;> simp
    · simp [using_, hf, h1, loop_panic _ _ _ _ _ _ h2 h3]

/-- The hypotheses: a panic in the middle, and none at all. -/
example : ∃ (pre : List (Closer (List Nat) Unit Unit)) (c : Closer (List Nat) Unit Unit) (post : List (Closer (List Nat) Unit Unit)),
    numbered 0 [.ok none, .ok (some ()), .error (), .ok none] = pre ++ c :: post ∧ pre.length = 2 ∧ post.length = 1 ∧
    NonePanics pre [] ∧ (c (worldAfter pre [])).1 = .error () ∧ worldAfter (pre ++ [c]) [] = [0, 1, 2] :=
  ⟨[noting 0 (.ok none), noting 1 (.ok (some ()))], noting 2 (.error ()), [noting 3 (.ok none)], rfl, rfl, rfl,
    ⟨⟨_, rfl⟩, ⟨_, rfl⟩, trivial⟩, rfl, rfl⟩
example : NonePanics (numbered (P := Unit) 0 [.ok none, .ok (some 7)]) [] ∧
    errorsOf (numbered (P := Unit) 0 [.ok none, .ok (some 7)]) [] = [7] := ⟨⟨⟨_, rfl⟩, ⟨_, rfl⟩, trivial⟩, rfl⟩

end Verif.ClosePanic
