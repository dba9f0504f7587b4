/-!
# Finitely many terminating goroutines terminate together
-/
namespace Verif.Conc

/-- Finitely many goroutines, each of which can make finitely many steps, make finitely many steps together. -/
theorem acc_prod {α : Type} {R : Nat → α → α → Prop} : ∀ (N : Nat) (f : Nat → α), (∀ t, t < N → Acc (R t) (f t)) →
    Acc (fun g f => ∃ t, t < N ∧ R t (g t) (f t) ∧ ∀ u, u ≠ t → g u = f u) f
  | 0, _, _ => ⟨_, fun _ ⟨_, h, _⟩ => absurd h (by omega)⟩
  | N + 1, f, h => by
    have main : ∀ x, Acc (R N) x → ∀ f : Nat → α, (∀ t, t < N → Acc (R t) (f t)) → f N = x →
        Acc (fun g f => ∃ t, t < N + 1 ∧ R t (g t) (f t) ∧ ∀ u, u ≠ t → g u = f u) f := by
      intro x hx
      induction hx with
      | intro x _ ihx =>
        intro f hf hfx
        have hN := acc_prod N f hf
        induction hN with
        | intro f _ ihf =>
          refine ⟨_, ?_⟩
          rintro g ⟨t, ht, hr, hrest⟩
          by_cases e : t = N
          · subst e
            refine ihx (g t) (by rw [← hfx]; exact hr) g (fun u hu => ?_) rfl
            rw [hrest u (by omega)]; exact hf u hu
          · have ht' : t < N := by omega
            refine ihf g ⟨t, ht', hr, hrest⟩ (fun u hu => ?_) (by rw [hrest N (Ne.symm e)]; exact hfx)
            by_cases e' : u = t
            · rw [e']; exact (hf t ht').inv hr
            · rw [hrest u e']; exact hf u hu
    exact main (f N) (h N (by omega)) f (fun t ht => h t (by omega)) rfl

end Verif.Conc
