import Verif.ClosePanic.Spec
/-!
# The loop over the closers
-/
namespace Verif.ClosePanic

variable {W E P : Type}

theorem loop_ok (cs : List (Closer W P E)) : ∀ (errs : List E) (w : W), NonePanics cs w →
    closeLoop cs errs w = (.ok (errs ++ errorsOf cs w), worldAfter cs w) := by
  induction cs with
  | nil => intro errs w _; simp [closeLoop, errorsOf, worldAfter]
  | cons c cs ih =>
    rintro errs w ⟨⟨r, hr⟩, h⟩
    cases hc : c w with
    | mk x w' =>
      rw [hc] at hr h
      simp only at hr h
      subst hr
      cases r with
      | none => simp [closeLoop, hc, errorsOf, worldAfter, ih _ _ h]
      | some e => simp [closeLoop, hc, errorsOf, worldAfter, ih _ _ h]

theorem loop_panic (pre : List (Closer W P E)) (c : Closer W P E) (post : List (Closer W P E)) :
    ∀ (errs : List E) (w : W) (p : P), NonePanics pre w → (c (worldAfter pre w)).1 = .error p →
    closeLoop (pre ++ c :: post) errs w = (.error p, worldAfter (pre ++ [c]) w) := by
  induction pre with
  | nil =>
    intro errs w p _ h
    cases hc : c w with
    | mk x w' =>
      simp only [worldAfter, hc] at h
      subst h
      simp [closeLoop, hc, worldAfter]
  | cons d pre ih =>
    rintro errs w p ⟨⟨r, hr⟩, h⟩ hp
    cases hd : d w with
    | mk x w' =>
      rw [hd] at hr h
      simp only at hr h
      subst hr
      have hp' : (c (worldAfter pre w')).1 = .error p := by simpa [worldAfter, hd] using hp
      cases r <;> simp [closeLoop, hd, worldAfter, ih _ _ _ h hp']

/-- Either none panics, or there is a first one that does. -/
theorem first_panic (cs : List (Closer W P E)) : ∀ w, NonePanics cs w ∨ ∃ pre c post p, cs = pre ++ c :: post ∧
    NonePanics pre w ∧ (c (worldAfter pre w)).1 = .error p := by
  induction cs with
  | nil => intro w; exact .inl trivial
  | cons c cs ih =>
    intro w
    cases hc : (c w).1 with
    | error p => exact .inr ⟨[], c, cs, p, rfl, trivial, hc⟩
    | ok r =>
      rcases ih (c w).2 with h | ⟨pre, d, post, p, h1, h2, h3⟩
      · exact .inl ⟨⟨r, hc⟩, h⟩
      · exact .inr ⟨c :: pre, d, post, p, by rw [h1]; rfl, ⟨⟨r, hc⟩, h2⟩, h3⟩

theorem close_mgr (m : Mgr W P E) (h : m.locked = false) (w : W) : (m.close w).2.1 = m := by
  obtain ⟨l, cs⟩ := m
  simp only at h
  subst h
  cases hl : closeLoop cs [] w with
  | mk r w' => cases r <;> simp [Mgr.close, hl]

theorem run_mgr (ops : List (Op W P E)) : ∀ (m : Mgr W P E) (w : W), m.locked = false →
    (run ops m w).2.1 = ⟨false, m.list ++ appended ops⟩ := by
  induction ops with
  | nil => rintro ⟨l, cs⟩ w h; simp only at h; subst h; simp [run, appended]
  | cons o ops ih =>
    intro m w h
    cases o with
    | append c =>
      simp only [run, Mgr.append, h, Bool.false_eq_true, if_false, appended]
      rw [ih ⟨false, m.list ++ [c]⟩ w rfl]; simp
    | close => simp only [run, appended, close_mgr m h, ih m _ h]

end Verif.ClosePanic
