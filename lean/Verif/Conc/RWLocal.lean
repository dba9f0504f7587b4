import Verif.Conc.RWEnds
/-!
# Methods whose loops end because of where they started
-/
namespace Verif.Conc.RW
open Verif.Conc Relation

variable {σ A C R : Type}

/-- The same object; only what a method can get to from its start has steps. -/
def restrict (g : Guarded σ A C R) : Guarded σ A C R :=
  { g with iter := fun s c a a' => ReflTransGen (g.iter s c) g.start a ∧ g.iter s c a a' }

variable {g : Guarded σ A C R}

theorem restrict_step (ro : ReadsOnly g) {s s' : St σ A C R} (h : Reach g s) (st : Step g s s') : Step (restrict g) s s' := by
  obtain ⟨S, i⟩ := h.inv ro
  cases st with
  | invoke h1 => exact .invoke h1
  | rlock h1 h2 h3 => exact .rlock (g := restrict g) h1 h2 h3
  | lock h1 h2 h3 h4 => exact .lock (g := restrict g) h1 h2 h3 h4
  | @iter t id c acc acc' h1 h2 =>
    have := i.pcs t
    rw [h1] at this
    exact .iter (g := restrict g) h1 ⟨this.2.2, h2⟩
  | access h1 h2 => exact .access (g := restrict g) h1 h2
  | runlock h1 h2 => exact .runlock (g := restrict g) h1 h2
  | unlock h1 h2 => exact .unlock (g := restrict g) h1 h2
  | ret h1 => exact .ret h1

theorem step_of_restrict {s s' : St σ A C R} (st : Step (restrict g) s s') : Step g s s' := by
  cases st with
  | invoke h1 => exact .invoke h1
  | rlock h1 h2 h3 => exact .rlock (g := g) h1 h2 h3
  | lock h1 h2 h3 h4 => exact .lock (g := g) h1 h2 h3 h4
  | iter h1 h2 => exact .iter h1 h2.2
  | access h1 h2 => exact .access (g := g) h1 h2
  | runlock h1 h2 => exact .runlock (g := g) h1 h2
  | unlock h1 h2 => exact .unlock (g := g) h1 h2
  | ret h1 => exact .ret h1

theorem restrict_reach (ro : ReadsOnly g) {s : St σ A C R} (h : Reach g s) : Reach (restrict g) s := by
  induction h with
  | init => exact Reach.init (g := restrict g)
  | step h st ih => exact ih.step (restrict_step ro h st)

theorem restrict_readsOnly (ro : ReadsOnly g) : ReadsOnly (restrict g) := ro

theorem restrict_live (lv : Live g) : Live (restrict g) := fun s c acc h => by
  have h' : ReflTransGen (g.iter s c) g.start acc := ReflTransGen.mono (fun _ _ h => h.2) _ _ h
  rcases lv s c acc h' with ⟨acc', h1⟩ | h1
  · exact .inl ⟨acc', h', h1⟩
  · exact .inr h1

/-- A measure is only needed for what can be got to. -/
def ShrinksFrom (g : Guarded σ A C R) (μ : σ → C → A → Nat) : Prop :=
  ∀ s c acc acc', ReflTransGen (g.iter s c) g.start acc → g.iter s c acc acc' → μ s c acc' < μ s c acc

theorem ends' (ro : ReadsOnly g) {μ : σ → C → A → Nat} (hμ : ShrinksFrom g μ) {s : St σ A C R} (h : Reach g s) :
    ¬ ∃ f : Nat → St σ A C R, f 0 = s ∧ ∀ n, Step g (f n) (f (n + 1)) ∧ (f (n + 1)).next = (f n).next := by
  rintro ⟨f, rfl, hf⟩
  have all : ∀ n, Reach g (f n) := fun n => by
    induction n with
    | zero => exact h
    | succ n ih => exact ih.step (hf n).1
  exact ends (g := restrict g) (μ := μ) (fun s c a a' h => hμ s c a a' h.1 h.2) (restrict_reach ro h)
    ⟨f, rfl, fun n => ⟨restrict_step ro (all n) (hf n).1, (hf n).2⟩⟩

theorem all_return' (ro : ReadsOnly g) (lv : Live g) {μ : σ → C → A → Nat} (hμ : ShrinksFrom g μ) {s : St σ A C R} (h : Reach g s) :
    ((¬ ∃ s', Step g s s' ∧ s'.next = s.next) → ∀ t, s.pc t = .idle) ∧
    ∃ s', Relation.ReflTransGen (fun a b : St σ A C R => Step g a b ∧ b.next = a.next) s s' ∧ ∀ t, s'.pc t = .idle := by
  obtain ⟨h1, s', h2, h3⟩ := all_return (g := restrict g) (restrict_readsOnly ro) (restrict_live lv) (μ := μ)
    (fun s c a a' h => hμ s c a a' h.1 h.2) (restrict_reach ro h)
  exact ⟨fun hn => h1 fun ⟨s', st, e⟩ => hn ⟨s', step_of_restrict st, e⟩, s',
    ReflTransGen.mono (fun _ _ h => ⟨step_of_restrict h.1, h.2⟩) _ _ h2, h3⟩

end Verif.Conc.RW
