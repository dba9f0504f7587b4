import Verif.LazyPanic.Spec
import Mathlib.Logic.Relation
/-!
# Lemmas for lazies whose constructors panic
-/
namespace Verif.LazyPanic

variable {V : Type} {P : Prog V}

mutual
theorem Value.unique {i : Nat} {v w : V} : Value P i v → Value P i w → v = w
  | .mk a, .mk b => ValueFrom.unique a b

theorem ValueFrom.unique {i : Nat} {got : List (Option V)} {v w : V} : ValueFrom P i got v → ValueFrom P i got w → v = w
  | .ret a, .ret b => by rw [a] at b; cases b; rfl
  | .ret a, .get b _ _ => by rw [a] at b; cases b
  | .get a _ _, .ret b => by rw [a] at b; cases b
  | .get a x y, .get b x' y' => by
    rw [a] at b
    cases b
    obtain rfl := Value.unique x x'
    exact ValueFrom.unique y y'
end

/-- Every lazy that is done and has a value has that one. -/
def Good (P : Prog V) (s : St V) : Prop := ∀ i v w, Value P i v → s i = .done w → w = v

theorem Good.busy {s : St V} (h : Good P s) (i : Nat) : Good P (s.put i .busy) := by
  intro k v w hv e
  unfold St.put at e
  split at e
  · cases e
  · exact h k v w hv e

mutual
theorem get_good {s : St V} {i : Nat} {r : Option V} {s' : St V} : Get P s i r s' → Good P s →
    Good P s' ∧ ∀ v, Value P i v → r = some v
  | .hit e, h => ⟨h, fun v hv => by rw [h i v _ hv e]⟩
  | .build e x, h => by
    obtain ⟨h1, h2⟩ := run_good x (h.busy i)
    refine ⟨?_, ?_⟩
    · intro k v w hv e'
      unfold St.put at e'
      split at e'
      · next hk =>
        subst hk
        cases hv with
        | mk a =>
          rw [h2 v a] at e'
          cases e'
          rfl
      · exact h1 k v w hv e'
    · rintro v ⟨a⟩
      exact h2 v a

theorem run_good {s : St V} {i : Nat} {got : List (Option V)} {r : Option V} {s' : St V} : Run P s i got r s' →
    Good P s → Good P s' ∧ ∀ v, ValueFrom P i got v → r = some v
  | .ret a, h => ⟨h, fun v hv => by
    cases hv with
    | ret b => rw [a] at b; cases b; rfl
    | get b _ _ => rw [a] at b; cases b⟩
  | .panic a, h => ⟨h, fun v hv => by
    cases hv with
    | ret b => rw [a] at b; cases b
    | get b _ _ => rw [a] at b; cases b⟩
  | .got a x y, h => by
    obtain ⟨h1, h2⟩ := get_good x h
    obtain ⟨h3, h4⟩ := run_good y h1
    refine ⟨h3, fun v hv => ?_⟩
    cases hv with
    | ret b => rw [a] at b; cases b
    | get b x' y' =>
      rw [a] at b
      cases b
      cases h2 _ x'
      exact h4 v y'
  | .caught a x y, h => by
    obtain ⟨h1, h2⟩ := get_good x h
    obtain ⟨h3, h4⟩ := run_good y h1
    refine ⟨h3, fun v hv => ?_⟩
    cases hv with
    | ret b => rw [a] at b; cases b
    | get b x' y' =>
      rw [a] at b
      cases b
      cases h2 _ x'
  | .through a x, h => by
    obtain ⟨h1, h2⟩ := get_good x h
    refine ⟨h1, fun v hv => ?_⟩
    cases hv with
    | ret b => rw [a] at b; cases b
    | get b x' y' =>
      rw [a] at b
      cases b
      cases h2 _ x'
end

theorem hist_good {s : St V} {is rs s'} (h : Hist P s is rs s') (hg : Good P s) : Good P s' := by
  induction h with
  | nil => exact hg
  | cons x _ ih => exact ih (get_good x hg).1

theorem hist_values {s : St V} {is rs s'} (h : Hist P s is rs s') (hg : Good P s) :
    List.Forall₂ (fun i r => ∀ v, Value P i v → r = some v) is rs := by
  induction h with
  | nil => exact .nil
  | cons x _ ih => exact .cons (get_good x hg).2 (ih (get_good x hg).1)

/-! ## When no constructor panics -/

/-- Every lazy that is done has the value of its definition. -/
def AllValues (P : Prog V) (s : St V) : Prop := ∀ i w, s i = .done w → Value P i w

mutual
theorem get_all (hn : NoPanic P) {s : St V} {i : Nat} {r : Option V} {s' : St V} : Get P s i r s' → AllValues P s →
    AllValues P s' ∧ ∃ v, r = some v ∧ Value P i v
  | .hit e, h => ⟨h, _, rfl, h i _ e⟩
  | .build e x, h => by
    obtain ⟨h1, v, rfl, hv⟩ := run_all hn x (by
      intro k w e'
      unfold St.put at e'
      split at e'
      · cases e'
      · exact h k w e')
    refine ⟨?_, v, rfl, .mk hv⟩
    intro k w e'
    unfold St.put at e'
    split at e'
    · next hk =>
      subst hk
      cases e'
      exact .mk hv
    · exact h1 k w e'

theorem run_all (hn : NoPanic P) {s : St V} {i : Nat} {got : List (Option V)} {r : Option V} {s' : St V} :
    Run P s i got r s' → AllValues P s → AllValues P s' ∧ ∃ v, r = some v ∧ ValueFrom P i got v
  | .ret a, h => ⟨h, _, rfl, .ret a⟩
  | .panic a, h => absurd a (hn _ _)
  | .got a x y, h => by
    obtain ⟨h1, w, e, hw⟩ := get_all hn x h
    cases e
    obtain ⟨h2, v, rfl, hv⟩ := run_all hn y h1
    exact ⟨h2, v, rfl, .get a hw hv⟩
  | .caught a x y, h => by
    obtain ⟨_, w, e, _⟩ := get_all hn x h
    cases e
  | .through a x, h => by
    obtain ⟨_, w, e, _⟩ := get_all hn x h
    cases e
end

theorem hist_all (hn : NoPanic P) {s : St V} {is rs s'} (h : Hist P s is rs s') (hg : AllValues P s) :
    List.Forall₂ (fun i r => ∃ v, r = some v ∧ Value P i v) is rs := by
  induction h with
  | nil => exact .nil
  | cons x _ ih => exact .cons (get_all hn x hg).2 (ih (get_all hn x hg).1)

/-! ## Nothing stays busy -/

mutual
theorem get_busy {s : St V} {i : Nat} {r : Option V} {s' : St V} : Get P s i r s' → ∀ k, s' k = .busy ↔ s k = .busy
  | .hit _, _ => Iff.rfl
  | .build e x, k => by
    have := run_busy x k
    unfold St.put at this ⊢
    by_cases hk : k = i
    · subst hk
      simp [e]
    · simpa [hk] using this

theorem run_busy {s : St V} {i : Nat} {got : List (Option V)} {r : Option V} {s' : St V} : Run P s i got r s' →
    ∀ k, s' k = .busy ↔ s k = .busy
  | .ret _, _ => Iff.rfl
  | .panic _, _ => Iff.rfl
  | .got _ x y, k => (run_busy y k).trans (get_busy x k)
  | .caught _ x y, k => (run_busy y k).trans (get_busy x k)
  | .through _ x, k => get_busy x k
end

theorem hist_busy {s : St V} {is rs s'} (h : Hist P s is rs s') : ∀ k, s' k = .busy ↔ s k = .busy := by
  induction h with
  | nil => exact fun _ => Iff.rfl
  | cons x _ ih => exact fun k => (ih k).trans (get_busy x k)

/-! ## Lazies with a value can be got -/

/-- The constructor of `i` gets `j` on the way to its value. -/
inductive Needs (P : Prog V) : Nat → List (Option V) → Nat → Prop
  | here {i got j g} : P.ctor i got = .get j g → Needs P i got j
  | later {i got k g w j} : P.ctor i got = .get k g → Value P k w → Needs P i (got ++ [some w]) j → Needs P i got j

/-- `j` is needed for `i`. -/
def Below (P : Prog V) (j i : Nat) : Prop := Needs P i [] j

mutual
theorem acc_value {i : Nat} {v : V} : Value P i v → Acc (Below P) i
  | .mk a => ⟨_, fun _ h => acc_needs a h⟩

theorem acc_needs {i : Nat} {got : List (Option V)} {v : V} : ValueFrom P i got v → ∀ {j}, Needs P i got j → Acc (Below P) j
  | .ret a, j, h => by
    cases h with
    | here b => rw [a] at b; cases b
    | later b _ _ => rw [a] at b; cases b
  | .get a x y, j, h => by
    cases h with
    | here b =>
      rw [a] at b
      cases b
      exact acc_value x
    | later b x' n =>
      rw [a] at b
      cases b
      obtain rfl := Value.unique x x'
      exact acc_needs y n
end

theorem acc_irrefl {R : Nat → Nat → Prop} {a : Nat} (h : Acc R a) : ¬ Relation.TransGen R a a := by
  have h' := h.transGen
  clear h
  induction h' with
  | intro x _ ih => exact fun t => ih x t t

mutual
theorem get_exists {i : Nat} {v : V} : Value P i v → ∀ s : St V, Good P s → s i ≠ .busy →
    (∀ k, s k = .busy → Relation.TransGen (Below P) i k) → ∃ s', Get P s i (some v) s'
  | .mk a, s, hg, hi, hb => by
    cases e : s i with
    | busy => exact absurd e hi
    | done w => exact ⟨s, by rw [← hg i v w (.mk a) e]; exact .hit e⟩
    | fresh =>
      have hirr := acc_irrefl (acc_value (.mk a))
      obtain ⟨s', x⟩ := run_exists a (s.put i .busy) (hg.busy i) (by
        intro k hk j hn
        unfold St.put at hk
        have hk' : k = i ∨ s k = .busy := by
          by_cases h : k = i
          · exact .inl h
          · exact .inr (by simpa [h] using hk)
        have hji : ∀ j, Needs P i [] j → Below P j i := fun _ h => h
        rcases hk' with rfl | hk'
        · exact .single (hji j hn)
        · exact .head (hji j hn) (hb k hk'))
      exact ⟨_, .build e x⟩

theorem run_exists {i : Nat} {got : List (Option V)} {v : V} : ValueFrom P i got v → ∀ s : St V, Good P s →
    (∀ k, s k = .busy → ∀ j, Needs P i got j → Relation.TransGen (Below P) j k) →
    ∃ s', Run P s i got (some v) s'
  | .ret a, s, _, _ => ⟨s, .ret a⟩
  | .get (j := j) a x y, s, hg, hb => by
    have hj : s j ≠ .busy := fun h => acc_irrefl (acc_value x) (hb j h j (.here a))
    obtain ⟨s1, h1⟩ := get_exists x s hg hj (fun k hk => hb k hk j (.here a))
    obtain ⟨s2, h2⟩ := run_exists y s1 (get_good h1 hg).1 (by
      intro k hk j' hn
      exact hb k ((get_busy h1 k).1 hk) j' (.later a x hn))
    exact ⟨s2, .got a h1 h2⟩
end

/-! ## The steps are deterministic -/

mutual
theorem Get.unique {s : St V} {i : Nat} {r : Option V} {s' : St V} : Get P s i r s' → ∀ {r2 s2}, Get P s i r2 s2 →
    r = r2 ∧ s' = s2
  | .hit a, _, _, .hit b => by rw [a] at b; cases b; exact ⟨rfl, rfl⟩
  | .hit a, _, _, .build b _ => by rw [a] at b; cases b
  | .build a _, _, _, .hit b => by rw [a] at b; cases b
  | .build _ x, _, _, .build _ y => by
    obtain ⟨rfl, rfl⟩ := Run.unique x y
    exact ⟨rfl, rfl⟩

theorem Run.unique {s : St V} {i : Nat} {got : List (Option V)} {r : Option V} {s' : St V} : Run P s i got r s' →
    ∀ {r2 s2}, Run P s i got r2 s2 → r = r2 ∧ s' = s2
  | .ret a, _, _, h => by
    cases h with
    | ret b => rw [a] at b; cases b; exact ⟨rfl, rfl⟩
    | panic b => rw [a] at b; cases b
    | got b => rw [a] at b; cases b
    | caught b => rw [a] at b; cases b
    | through b => rw [a] at b; cases b
  | .panic a, _, _, h => by
    cases h with
    | ret b => rw [a] at b; cases b
    | panic b => exact ⟨rfl, rfl⟩
    | got b => rw [a] at b; cases b
    | caught b => rw [a] at b; cases b
    | through b => rw [a] at b; cases b
  | .got a x y, _, _, h => by
    cases h with
    | ret b => rw [a] at b; cases b
    | panic b => rw [a] at b; cases b
    | got b x' y' =>
      rw [a] at b; cases b
      obtain ⟨e, rfl⟩ := Get.unique x x'
      cases e
      exact Run.unique y y'
    | caught b x' y' =>
      rw [a] at b; cases b
      have := (Get.unique x x').1
      cases this
    | through b x' =>
      rw [a] at b; cases b
      have := (Get.unique x x').1
      cases this
  | .caught a x y, _, _, h => by
    cases h with
    | ret b => rw [a] at b; cases b
    | panic b => rw [a] at b; cases b
    | got b x' y' =>
      rw [a] at b; cases b
      have := (Get.unique x x').1
      cases this
    | caught b x' y' =>
      rw [a] at b; cases b
      obtain ⟨-, rfl⟩ := Get.unique x x'
      exact Run.unique y y'
    | through b x' => rw [a] at b; cases b
  | .through a x, _, _, h => by
    cases h with
    | ret b => rw [a] at b; cases b
    | panic b => rw [a] at b; cases b
    | got b x' y' =>
      rw [a] at b; cases b
      have := (Get.unique x x').1
      cases this
    | caught b x' y' => rw [a] at b; cases b
    | through b x' =>
      rw [a] at b; cases b
      obtain ⟨-, rfl⟩ := Get.unique x x'
      exact ⟨rfl, rfl⟩
end

end Verif.LazyPanic
