import Verif.Lockx.Model
/-!
# Property C37: `Lock`
-/
namespace Verif.Lockx

theorem at_pc (s : St) (g h : Nat) (p : Pc) : (s.at g p).pc h = if h = g then p else s.pc h := rfl

/-- **C37 is false of the code**: unless the variable's first word happens to be its own address, no
callback ever runs - in every execution, every call spins forever. -/
theorem C37_refuted (a w : Nat) (hw : w ≠ a) {s : St} (r : Reach a w s) (g : Nat) :
    s.pc g = .idle ∨ s.pc g = .acquire := by
  have : s.word = w ∧ ∀ g, s.pc g = .idle ∨ s.pc g = .acquire := by
    clear g
    induction r with
    | init => exact ⟨rfl, fun _ => Or.inl rfl⟩
    | step r st ih =>
      obtain ⟨h1, h2⟩ := ih
      cases st <;> (try simp only [St.at]) <;> grind
  exact this.2 g

/-- A goroutine stuck in `release`, and nobody else inside. -/
theorem release_stuck {a : Nat} {s s' : St} (g : Nat) (hs : Steps a s s') (hr : s.pc g = .release)
    (h0 : s.word ≠ 0) (ha : s.word ≠ a) (hn : ∀ h, h ≠ g → s.pc h = .idle ∨ s.pc h = .acquire) :
    s'.pc g = .release ∧ s'.word = s.word ∧ ∀ h, h ≠ g → s'.pc h = .idle ∨ s'.pc h = .acquire := by
  induction hs with
  | refl => exact ⟨hr, rfl, hn⟩
  | step _ st ih =>
    obtain ⟨h1, h2, h3⟩ := ih
    cases st <;> (try simp only [St.at]) <;> grind

/-- **C37 is false even for a variable holding its own address**: a callback that stores something
else into it never gets out, and nobody ever gets in; one that stores the address back lets a second
callback in. -/
theorem C37_refuted_self (a : Nat) (ha : a ≠ 0) :
    (∀ v, v ≠ 0 → v ≠ a → ∃ s, Reach a a s ∧ ∀ s', Steps a s s' → s'.pc 0 = .release ∧
      ∀ h, h ≠ 0 → s'.pc h = .idle ∨ s'.pc h = .acquire) ∧
    (∃ s, Reach a a s ∧ s.pc 0 = .inside ∧ s.pc 1 = .inside) := by
  have r := Reach.init (a := a) (w := a)
  have r := r.step (.call (g := 0) _ (Or.inl rfl))
  have r := r.step (.acquireOk (g := 0) _ rfl rfl)
  constructor
  · intro v hv hva
    have r := r.step (.fWrite (g := 0) _ v rfl)
    have r := r.step (.fDone (g := 0) _ rfl)
    refine ⟨_, r, fun s' hs => ?_⟩
    have := release_stuck 0 hs rfl hv hva (fun h hh => Or.inl (by simp [St.at, hh]))
    exact ⟨this.1, this.2.2⟩
  · have r := r.step (.fWrite (g := 0) _ a rfl)
    have r := r.step (.call (g := 1) _ (Or.inl rfl))
    have r := r.step (.acquireOk (g := 1) _ rfl rfl)
    exact ⟨_, r, rfl, rfl⟩

/-- **C37, what does hold**: if the first word is the variable's own address and no callback writes
it, at most one callback runs at a time, the word is its address again whenever none does, and a
goroutine inside a call can step, or waits while another one, inside, can. Missing from the full
claim: every other content, where it is false. -/
theorem C37_partial (a : Nat) (ha : a ≠ 0) {s : St} (r : ReachQ a a s) :
    (∀ g h, (s.pc g = .inside ∨ s.pc g = .release) → (s.pc h = .inside ∨ s.pc h = .release) → g = h) ∧
    ((∀ g, s.pc g ≠ .inside ∧ s.pc g ≠ .release) → s.word = a) ∧
    (∀ g, s.pc g = .acquire → (∃ s', Step a g s s' ∧ s'.pc g = .inside) ∨
      ∃ h, (s.pc h = .inside ∧ ∃ s', Step a h s s' ∧ s'.pc h = .release) ∨
        (s.pc h = .release ∧ ∃ s', Step a h s s' ∧ s'.pc h = .returned)) := by
  have inv : (∀ g h, (s.pc g = .inside ∨ s.pc g = .release) → (s.pc h = .inside ∨ s.pc h = .release) → g = h) ∧
      ((∀ g, s.pc g ≠ .inside ∧ s.pc g ≠ .release) → s.word = a) ∧
      (∀ g, (s.pc g = .inside ∨ s.pc g = .release) → s.word = 0) := by
    induction r with
    | init => refine ⟨fun g h hg => ?_, fun _ => rfl, fun g hg => ?_⟩ <;> simp at hg
    | step r st hq ih =>
      obtain ⟨h1, h2, h3⟩ := ih
      cases st with
      | call hp => refine ⟨?_, ?_, ?_⟩ <;> simp only [St.at] <;> grind
      | acquireOk hp hw =>
        refine ⟨?_, ?_, ?_⟩ <;> simp only [St.at] <;> grind
      | acquireSpin => exact ⟨h1, h2, h3⟩
      | fWrite v hp => have := hq hp; refine ⟨?_, ?_, ?_⟩ <;> simp only at this ⊢ <;> grind
      | fDone hp => refine ⟨?_, ?_, ?_⟩ <;> simp only [St.at] <;> grind
      | releaseOk hp hw => refine ⟨?_, ?_, ?_⟩ <;> simp only [St.at] <;> grind
      | releaseSpin => exact ⟨h1, h2, h3⟩
  obtain ⟨h1, h2, h3⟩ := inv
  refine ⟨h1, h2, fun g hg => ?_⟩
  by_cases hw : s.word = a
  · exact Or.inl ⟨_, .acquireOk s hg hw, by simp [St.at]⟩
  · have : ∃ h, s.pc h = .inside ∨ s.pc h = .release := by
      by_contra hc
      push_neg at hc
      exact hw (h2 hc)
    obtain ⟨h, hh⟩ := this
    have h0 := h3 h hh
    rcases hh with hh | hh
    · exact Or.inr ⟨h, Or.inl ⟨hh, _, .fDone s hh, by simp [St.at]⟩⟩
    · exact Or.inr ⟨h, Or.inr ⟨hh, _, .releaseOk s hh h0, by simp [St.at]⟩⟩

/-- A call that goes through. -/
example : ∃ s, ReachQ 8 8 s ∧ s.pc 0 = .returned ∧ s.word = 8 := by
  have r := ReachQ.init (a := 8) (w := 8)
  have r := r.step (.call (g := 0) _ (Or.inl rfl)) (fun h => by cases h)
  have r := r.step (.acquireOk (g := 0) _ rfl rfl) (fun h => by cases h)
  have r := r.step (.fDone (g := 0) _ rfl) (fun _ => rfl)
  have r := r.step (.releaseOk (g := 0) _ rfl rfl) (fun h => by cases h)
  exact ⟨_, r, rfl, rfl⟩

end Verif.Lockx
