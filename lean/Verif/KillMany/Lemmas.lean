import Verif.KillMany.Model
import Mathlib.Algebra.BigOperators.Group.Finset.Basic
import Mathlib.Algebra.Order.BigOperators.Group.Finset
import Mathlib.Logic.Relation
/-!
# Lemmas for several kill handlers
-/
namespace Verif.KillMany

variable {n : Nat} {deps : Nat → List Nat} {s s' : St}

@[simp] theorem upd_same {α : Type} (f : Nat → α) (i : Nat) (v : α) : upd f i v i = v := by simp [upd]
theorem upd_ne {α : Type} (f : Nat → α) {i j : Nat} (v : α) (h : j ≠ i) : upd f i v j = f j := by simp [upd, h]

/-- What holds with any number of signals. -/
structure Inv (n : Nat) (deps : Nat → List Nat) (s : St) : Prop where
  dueLt : ∀ i ∈ s.due, i < n
  dueNodup : s.due.Nodup
  idle : ∀ i, n ≤ i → s.full i = false ∧ s.pc i = .wait ∧ s.closed i = false
  got : ∀ i l, s.pc i = .handling l → ∃ p, deps i = p ++ l ∧ ∀ j ∈ p, s.closed j = true
  ran : ∀ i, 1 ≤ s.runs i ∨ s.pc i = .closing → 1 ≤ s.runs i ∧ ∀ j ∈ deps i, s.closed j = true
  closed : ∀ i, s.closed i = true → 1 ≤ s.runs i
  runs : ∀ i, 1 ≤ s.runs i → s.pc i ≠ .closing → s.closed i = true

theorem inv_quiet (i : Inv n deps s) (st : Quiet deps s s') : Inv n deps s' := by
  obtain ⟨h1, h2, h3, h4, h5, h6, h7⟩ := i
  cases st with
  | @send i hc hi =>
    refine ⟨fun j hj => h1 j (List.mem_of_mem_erase hj), h2.erase i, ?_, h4, h5, h6, h7⟩
    intro j hj
    have : j ≠ i := by have := h1 i hi; omega
    simp only [upd_ne _ _ this]
    exact h3 j hj
  | @take i hc hp hf =>
    refine ⟨h1, h2, ?_, ?_, ?_, h6, ?_⟩
    · intro j hj
      have : j ≠ i := by rintro rfl; rw [(h3 j hj).1] at hf; cases hf
      simp only [upd_ne _ _ this]
      exact h3 j hj
    · intro j l
      by_cases hj : j = i
      · subst hj; simp only [upd_same]; rintro e; cases e; exact ⟨[], rfl, by simp⟩
      · simp only [upd_ne _ _ hj]; exact h4 j l
    · intro j
      by_cases hj : j = i
      · subst hj; simp only [upd_same]
        rintro (h | h)
        · exact h5 j (.inl h)
        · cases h
      · simp only [upd_ne _ _ hj]; exact h5 j
    · intro j hr hn
      by_cases hj : j = i
      · subst hj; exact h7 j hr (by simp [hp])
      · simp only [upd_ne _ _ hj] at hn; exact h7 j hr hn
  | @await i k l hc hp hk =>
    refine ⟨h1, h2, ?_, ?_, ?_, h6, ?_⟩
    · intro j hj
      have : j ≠ i := by rintro rfl; rw [(h3 j hj).2.1] at hp; cases hp
      simp only [upd_ne _ _ this]
      exact h3 j hj
    · intro j l'
      by_cases hj : j = i
      · subst hj; simp only [upd_same]; rintro e; cases e
        obtain ⟨p, e, hp⟩ := h4 j _ hp
        refine ⟨p ++ [k], by simp [e], ?_⟩
        intro x hx
        simp only [List.mem_append, List.mem_singleton] at hx
        rcases hx with hx | rfl
        · exact hp x hx
        · exact hk
      · simp only [upd_ne _ _ hj]; exact h4 j l'
    · intro j
      by_cases hj : j = i
      · subst hj; simp only [upd_same]
        rintro (h | h)
        · exact h5 j (.inl h)
        · cases h
      · simp only [upd_ne _ _ hj]; exact h5 j
    · intro j hr hn
      by_cases hj : j = i
      · subst hj; exact h7 j hr (by simp [hp])
      · simp only [upd_ne _ _ hj] at hn; exact h7 j hr hn
  | @handled i hc hp =>
    obtain ⟨p, e, hpc⟩ := h4 i _ hp
    rw [List.append_nil] at e
    refine ⟨h1, h2, ?_, ?_, ?_, ?_, ?_⟩
    · intro j hj
      have : j ≠ i := by rintro rfl; rw [(h3 j hj).2.1] at hp; cases hp
      simp only [upd_ne _ _ this]
      exact h3 j hj
    · intro j l'
      by_cases hj : j = i
      · subst hj; simp
      · simp only [upd_ne _ _ hj]; exact h4 j l'
    · intro j
      by_cases hj : j = i
      · subst hj; simp only [upd_same]
        intro _
        exact ⟨by omega, by rw [e]; exact hpc⟩
      · simp only [upd_ne _ _ hj]; exact h5 j
    · intro j
      by_cases hj : j = i
      · subst hj; simp
      · simp only [upd_ne _ _ hj]; exact h6 j
    · intro j
      by_cases hj : j = i
      · subst hj; simp
      · simp only [upd_ne _ _ hj]; exact h7 j
  | @close i hc hp hcl =>
    have mono : ∀ j, s.closed j = true → upd s.closed i true j = true := by
      intro j hj
      by_cases h : j = i
      · subst h; simp
      · rw [upd_ne _ _ h]; exact hj
    have hi := h5 i (.inr hp)
    refine ⟨h1, h2, ?_, ?_, ?_, ?_, ?_⟩
    · intro j hj
      have : j ≠ i := by rintro rfl; rw [(h3 j hj).2.1] at hp; cases hp
      simp only [upd_ne _ _ this]
      exact h3 j hj
    · intro j l'
      by_cases hj : j = i
      · subst hj; simp
      · simp only [upd_ne _ _ hj]
        intro h
        obtain ⟨p, e, hp⟩ := h4 j l' h
        exact ⟨p, e, fun x hx => mono x (hp x hx)⟩
    · intro j
      by_cases hj : j = i
      · subst hj; simp only [upd_same]
        intro _
        exact ⟨hi.1, fun x hx => mono x (hi.2 x hx)⟩
      · simp only [upd_ne _ _ hj]
        intro h
        exact ⟨(h5 j h).1, fun x hx => mono x ((h5 j h).2 x hx)⟩
    · intro j
      by_cases hj : j = i
      · subst hj; intro _; exact hi.1
      · simp only [upd_ne _ _ hj]; exact h6 j
    · intro j
      by_cases hj : j = i
      · subst hj; simp
      · simp only [upd_ne _ _ hj]; exact h7 j
  | closeCrash hc hp hcl => exact ⟨h1, h2, h3, h4, h5, h6, h7⟩

theorem inv_reach (r : Reach n deps s) : Inv n deps s := by
  induction r with
  | init => constructor <;> simp [init]
  | step _ st ih =>
    cases st with
    | quiet st => exact inv_quiet ih st
    | signal hc hd =>
      obtain ⟨h1, h2, h3, h4, h5, h6, h7⟩ := ih
      exact ⟨fun i hi => by simpa using hi, List.nodup_range, h3, h4, h5, h6, h7⟩

/-- A goroutine that has not been told anything yet. -/
def Fresh (s : St) (i : Nat) : Prop := s.pc i = .wait ∧ s.runs i = 0 ∧ s.closed i = false

/-- What holds with one signal at most. -/
structure One (s : St) : Prop where
  crash : s.crashed = false
  none : s.signals = 0 → s.due = [] ∧ ∀ i, s.full i = false ∧ Fresh s i
  due : ∀ i ∈ s.due, s.full i = false ∧ Fresh s i
  full : ∀ i, s.full i = true → Fresh s i
  handling : ∀ i l, s.pc i = .handling l → s.runs i = 0 ∧ s.closed i = false
  closing : ∀ i, s.pc i = .closing → s.runs i = 1 ∧ s.closed i = false
  le : ∀ i, s.runs i ≤ 1

theorem one_quiet (nd : s.due.Nodup) (o : One s) (st : Quiet deps s s') : One s' := by
  obtain ⟨h1, h2, h3, h4, h5, h6, h7⟩ := o
  cases st with
  | @send i hc hi =>
    refine ⟨h1, ?_, ?_, ?_, h5, h6, h7⟩
    · intro h; rw [(h2 h).1] at hi; cases hi
    · intro j hj
      obtain ⟨a, b⟩ := (List.Nodup.mem_erase_iff nd).1 hj
      simp only [upd_ne _ _ a]
      exact h3 j b
    · intro j
      by_cases hj : j = i
      · subst hj; intro _; exact (h3 j hi).2
      · simp only [upd_ne _ _ hj]; exact h4 j
  | @take i hc hp hf =>
    have nd' : i ∉ s.due := fun h => by rw [(h3 i h).1] at hf; cases hf
    have fr := h4 i hf
    refine ⟨h1, ?_, ?_, ?_, ?_, ?_, h7⟩
    · intro h; rw [((h2 h).2 i).1] at hf; cases hf
    · intro j hj
      have : j ≠ i := by rintro rfl; exact nd' hj
      have := h3 j hj
      simp only [Fresh, upd_ne _ _ ‹j ≠ i›] at *
      exact this
    · intro j
      by_cases hj : j = i
      · subst hj; simp
      · simp only [Fresh, upd_ne _ _ hj]; exact h4 j
    · intro j l
      by_cases hj : j = i
      · subst hj; intro _; exact fr.2
      · simp only [upd_ne _ _ hj]; exact h5 j l
    · intro j
      by_cases hj : j = i
      · subst hj; simp
      · simp only [upd_ne _ _ hj]; exact h6 j
  | @await i k l hc hp hk =>
    have nf : ¬ Fresh s i := fun h => by rw [h.1] at hp; cases hp
    refine ⟨h1, ?_, ?_, ?_, ?_, ?_, h7⟩
    · intro h; exact absurd ((h2 h).2 i).2 nf
    · intro j hj
      have : j ≠ i := by rintro rfl; exact nf (h3 j hj).2
      have := h3 j hj
      simp only [Fresh, upd_ne _ _ ‹j ≠ i›] at *
      exact this
    · intro j hj
      by_cases e : j = i
      · subst e; exact absurd (h4 j hj) nf
      · simp only [Fresh, upd_ne _ _ e]; exact h4 j hj
    · intro j l'
      by_cases hj : j = i
      · subst hj; intro _; exact h5 j _ hp
      · simp only [upd_ne _ _ hj]; exact h5 j l'
    · intro j
      by_cases hj : j = i
      · subst hj; simp
      · simp only [upd_ne _ _ hj]; exact h6 j
  | @handled i hc hp =>
    have nf : ¬ Fresh s i := fun h => by rw [h.1] at hp; cases hp
    have h0 := h5 i _ hp
    refine ⟨h1, ?_, ?_, ?_, ?_, ?_, ?_⟩
    · intro h; exact absurd ((h2 h).2 i).2 nf
    · intro j hj
      have : j ≠ i := by rintro rfl; exact nf (h3 j hj).2
      have := h3 j hj
      simp only [Fresh, upd_ne _ _ ‹j ≠ i›] at *
      exact this
    · intro j hj
      by_cases e : j = i
      · subst e; exact absurd (h4 j hj) nf
      · simp only [Fresh, upd_ne _ _ e]; exact h4 j hj
    · intro j l'
      by_cases hj : j = i
      · subst hj; simp
      · simp only [upd_ne _ _ hj]; exact h5 j l'
    · intro j
      by_cases hj : j = i
      · subst hj; simp [h0.1, h0.2]
      · simp only [upd_ne _ _ hj]; exact h6 j
    · intro j
      by_cases hj : j = i
      · subst hj; simp [h0.1]
      · simp only [upd_ne _ _ hj]; exact h7 j
  | @close i hc hp hcl =>
    have nf : ¬ Fresh s i := fun h => by rw [h.1] at hp; cases hp
    refine ⟨h1, ?_, ?_, ?_, ?_, ?_, h7⟩
    · intro h; exact absurd ((h2 h).2 i).2 nf
    · intro j hj
      have : j ≠ i := by rintro rfl; exact nf (h3 j hj).2
      have := h3 j hj
      simp only [Fresh, upd_ne _ _ ‹j ≠ i›] at *
      exact this
    · intro j hj
      by_cases e : j = i
      · subst e; exact absurd (h4 j hj) nf
      · simp only [Fresh, upd_ne _ _ e]; exact h4 j hj
    · intro j l'
      by_cases hj : j = i
      · subst hj; simp
      · simp only [upd_ne _ _ hj]; exact h5 j l'
    · intro j
      by_cases hj : j = i
      · subst hj; simp
      · simp only [upd_ne _ _ hj]; exact h6 j
  | @closeCrash i hc hp hcl => rw [(h6 i hp).2] at hcl; cases hcl

theorem quiet_signals (st : Quiet deps s s') : s'.signals = s.signals := by cases st <;> rfl

theorem one_reach (r : Reach n deps s) (h : s.signals ≤ 1) : One s := by
  induction r with
  | init => constructor <;> simp [init, Fresh]
  | step r st ih =>
    cases st with
    | quiet st => exact one_quiet (inv_reach r).dueNodup (ih (by rw [← quiet_signals st]; exact h)) st
    | signal hc hd =>
      dsimp only at h
      have o := ih (by omega)
      have f := (o.none (by omega)).2
      exact ⟨hc, fun h => by simp at h, fun i _ => f i, o.full, o.handling, o.closing, o.le⟩

/-! ## Ends -/

/-- What a goroutine has left to do. -/
def todo : Pc → Nat
  | .wait => 0
  | .handling l => l.length + 2
  | .closing => 1

/-- What one registration has left. -/
def weight (deps : Nat → List Nat) (s : St) (i : Nat) : Nat :=
  todo (s.pc i) + (if s.full i then (deps i).length + 3 else 0) + (if i ∈ s.due then (deps i).length + 4 else 0)

def total (n : Nat) (deps : Nat → List Nat) (s : St) : Nat :=
  (∑ i ∈ Finset.range n, weight deps s i) + (if s.crashed then 0 else 1)

theorem total_lt {i : Nat} (hi : i < n) (hc : s'.crashed = s.crashed) (h : ∀ j, j ≠ i → weight deps s' j = weight deps s j)
    (h' : weight deps s' i < weight deps s i) : total n deps s' < total n deps s := by
  unfold total
  rw [hc]
  refine Nat.add_lt_add_right (Finset.sum_lt_sum (fun j _ => ?_) ⟨i, by simpa using hi, h'⟩) _
  by_cases e : j = i
  · subst e; exact h'.le
  · exact (h j e).le

theorem total_quiet (i : Inv n deps s) (st : Quiet deps s s') : total n deps s' < total n deps s := by
  have lt : ∀ j, s.full j = true ∨ s.pc j ≠ .wait → j < n := by
    intro j hj
    by_contra hn
    have := i.idle j (by omega)
    rcases hj with h | h
    · rw [this.1] at h; cases h
    · exact h this.2.1
  cases st with
  | @send j hc hj =>
    refine total_lt (i := j) (i.dueLt j hj) rfl (fun x hx => ?_) ?_
    · simp only [weight, upd_ne _ _ hx, List.mem_erase_of_ne hx]
    · have : j ∉ s.due.erase j := fun h => ((List.Nodup.mem_erase_iff i.dueNodup).1 h).1 rfl
      simp only [weight, upd_same, if_neg this, if_pos hj]
      split <;> simp <;> omega
  | @take j hc hp hf =>
    refine total_lt (i := j) (lt j (.inl hf)) rfl (fun x hx => ?_) ?_
    · simp only [weight, upd_ne _ _ hx]
    · simp only [weight, upd_same, hp, hf, todo]
      simp
  | @await j k l hc hp hk =>
    refine total_lt (i := j) (lt j (.inr (by simp [hp]))) rfl (fun x hx => ?_) ?_
    · simp only [weight, upd_ne _ _ hx]
    · simp only [weight, upd_same, hp, todo, List.length_cons]
      omega
  | @handled j hc hp =>
    refine total_lt (i := j) (lt j (.inr (by simp [hp]))) rfl (fun x hx => ?_) ?_
    · simp only [weight, upd_ne _ _ hx]
    · simp only [weight, upd_same, hp, todo, List.length_nil]
      omega
  | @close j hc hp hcl =>
    refine total_lt (i := j) (lt j (.inr (by simp [hp]))) rfl (fun x hx => ?_) ?_
    · simp only [weight, upd_ne _ _ hx]
    · simp only [weight, upd_same, hp, todo]
      omega
  | closeCrash hc hp hcl => simp [total, weight, hc]

/-- Nothing can go on without another signal. -/
def Stuck (deps : Nat → List Nat) (s : St) : Prop := ¬ ∃ s', Quiet deps s s'

theorem to_stuck (r : Reach n deps s) : ∃ s', Relation.ReflTransGen (Quiet deps) s s' ∧ Reach n deps s' ∧ Stuck deps s' := by
  generalize hN : total n deps s = N
  induction N using Nat.strongRecOn generalizing s with
  | _ N ih =>
    by_cases h : ∃ s', Quiet deps s s'
    · obtain ⟨s', st⟩ := h
      have r' := r.step (.quiet st)
      obtain ⟨s'', a, b, c⟩ := ih _ (by rw [← hN]; exact total_quiet (inv_reach r) st) r' rfl
      exact ⟨s'', .head st a, b, c⟩
    · exact ⟨s, .refl, r, h⟩

/-- In a stuck state only handlers that wait for open channels are not back. -/
theorem stuck_pc (hc : s.crashed = false) (h : Stuck deps s) :
    s.due = [] ∧ ∀ i, s.pc i = .wait ∧ s.full i = false ∨ ∃ j l, s.pc i = .handling (j :: l) ∧ s.closed j = false := by
  refine ⟨?_, fun i => ?_⟩
  · cases hd : s.due with
    | nil => rfl
    | cons i l => exact absurd ⟨_, .send (i := i) hc (by simp [hd])⟩ h
  · cases hp : s.pc i with
    | wait =>
      cases hf : s.full i with
      | false => exact .inl ⟨rfl, rfl⟩
      | true => exact absurd ⟨_, .take hc hp hf⟩ h
    | handling l =>
      cases l with
      | nil => exact absurd ⟨_, .handled hc hp⟩ h
      | cons j l =>
        cases hj : s.closed j with
        | false => exact .inr ⟨j, l, rfl, hj⟩
        | true => exact absurd ⟨_, .await hc hp hj⟩ h
    | closing =>
      cases hj : s.closed i with
      | false => exact absurd ⟨_, .close hc hp hj⟩ h
      | true => exact absurd ⟨_, .closeCrash hc hp hj⟩ h

/-- Every registration has been told, or will be, once a signal came. -/
theorem told (r : Reach n deps s) (h : 1 ≤ s.signals) :
    ∀ i < n, i ∈ s.due ∨ s.full i = true ∨ s.pc i ≠ .wait ∨ s.closed i = true := by
  induction r with
  | init => simp [init] at h
  | @step s s' r st ih =>
    cases st with
    | signal hc hd => intro i hi; exact .inl (by simpa using hi)
    | quiet st =>
      intro i hi
      have := ih (by rw [← quiet_signals st]; exact h) i hi
      cases st with
      | @send j hc hj =>
        by_cases e : i = j
        · subst e; exact .inr (.inl (by simp))
        · simp only [upd_ne _ _ e, List.mem_erase_of_ne e]; exact this
      | @take j hc hp hf =>
        by_cases e : i = j
        · subst e; exact .inr (.inr (.inl (by simp)))
        · simp only [upd_ne _ _ e]; exact this
      | @await j k l hc hp hk =>
        by_cases e : i = j
        · subst e; exact .inr (.inr (.inl (by simp)))
        · simp only [upd_ne _ _ e]; exact this
      | @handled j hc hp =>
        by_cases e : i = j
        · subst e; exact .inr (.inr (.inl (by simp)))
        · simp only [upd_ne _ _ e]; exact this
      | @close j hc hp hcl =>
        by_cases e : i = j
        · subst e; exact .inr (.inr (.inr (by simp)))
        · simp only [upd_ne _ _ e]; exact this
      | closeCrash hc hp hcl => exact this

end Verif.KillMany
