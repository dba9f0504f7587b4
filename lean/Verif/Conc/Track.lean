import Verif.Conc.Lin
/-!
# Keeping track of calls that take effect one at a time

For systems without a lock: each thread has at most one call, which has not taken effect yet or has taken effect with a result and
not returned yet.
-/
namespace Verif.Conc

variable {ι σ C R : Type} [DecidableEq ι]

/-- The call of a thread: none, one that has not taken effect, one that has. -/
inductive Stage (C R : Type) where
  | none
  | owes (id : Nat) (c : C)
  | done (id : Nat) (c : C) (r : R)

def Stage.id? : Stage C R → Option Nat
  | .none => Option.none
  | .owes id _ => some id
  | .done id _ _ => some id

/-- What holds of a thread's call, given the history and the linearization so far. -/
def Stage.Ok (h : List (Event C R)) (S : List (Nat × C × R)) : Stage C R → Prop
  | .none => True
  | .owes id c => Event.inv id c ∈ h ∧ (∀ r, Event.ret id r ∉ h) ∧ ∀ e ∈ S, e.1 ≠ id
  | .done id c r => Event.inv id c ∈ h ∧ (∀ r, Event.ret id r ∉ h) ∧ (id, c, r) ∈ S

/-- The threads are in the given stages of their calls, the calls so far lead to `s`. -/
structure Track (o : Obj σ C R) (h : List (Event C R)) (S : List (Nat × C × R)) (s : σ) (next : Nat) (stage : ι → Stage C R) : Prop where
  lin : LinTo o h S s
  ok : ∀ t, (stage t).Ok h S
  ids : ∀ t t' id, (stage t).id? = some id → (stage t').id? = some id → t = t'
  fresh : ∀ id c, Event.inv id c ∈ h → id < next
  freshRet : ∀ id r, Event.ret id r ∈ h → id < next

variable {o : Obj σ C R} {h : List (Event C R)} {S : List (Nat × C × R)} {s : σ} {next : Nat} {stage : ι → Stage C R}

omit [DecidableEq ι] in
theorem Track.nil : Track o [] [] o.init 0 (fun _ : ι => Stage.none) :=
  ⟨LinTo.nil o, fun _ => trivial, fun _ _ _ e => by simp [Stage.id?] at e, by simp, by simp⟩

omit [DecidableEq ι] in
theorem Track.lt (k : Track o h S s next stage) {t : ι} {id : Nat} (e : (stage t).id? = some id) : id < next := by
  have := k.ok t
  cases hs : stage t <;> simp only [hs, Stage.id?, Stage.Ok] at e this
  · cases e
  · cases e; exact k.fresh _ _ this.1
  · cases e; exact k.fresh _ _ this.1

/-- A thread without a call makes one. -/
theorem Track.invoke (k : Track o h S s next stage) {t : ι} (ht : stage t = .none) (c : C) :
    Track o (h ++ [.inv next c]) S s (next + 1) (Function.update stage t (.owes next c)) := by
  have hS : ∀ e ∈ S, e.1 ≠ next := fun e he => by
    have := k.fresh _ _ (k.lin.invoked e he); omega
  have hr : ∀ r, Event.ret next r ∉ h := fun r hr => by
    have := k.freshRet _ _ hr; omega
  refine ⟨k.lin.inv _ _ hS, ?_, ?_, ?_, ?_⟩
  · intro t'
    by_cases e : t' = t
    · subst e; simp only [Function.update_self, Stage.Ok]
      exact ⟨by simp, fun r hr' => by simp at hr'; exact hr r hr', hS⟩
    · rw [Function.update_of_ne e]
      have := k.ok t'
      cases hs : stage t' <;> simp only [hs, Stage.Ok] at this ⊢
      · exact ⟨by simp [this.1], fun r hr' => by simp at hr'; exact this.2.1 r hr', this.2.2⟩
      · exact ⟨by simp [this.1], fun r hr' => by simp at hr'; exact this.2.1 r hr', this.2.2⟩
  · intro t1 t2 id h1 h2
    by_cases e1 : t1 = t <;> by_cases e2 : t2 = t
    · rw [e1, e2]
    · subst e1
      rw [Function.update_self] at h1; rw [Function.update_of_ne e2] at h2
      have := k.lt h2; cases h1; omega
    · subst e2
      rw [Function.update_self] at h2; rw [Function.update_of_ne e1] at h1
      have := k.lt h1; cases h2; omega
    · rw [Function.update_of_ne e1] at h1; rw [Function.update_of_ne e2] at h2
      exact k.ids _ _ _ h1 h2
  · intro id c' h'
    simp at h'
    rcases h' with h' | ⟨rfl, _⟩
    · have := k.fresh _ _ h'; omega
    · omega
  · intro id r h'
    simp at h'
    have := k.freshRet _ _ h'; omega

/-- The call of a thread takes effect. -/
theorem Track.effect (k : Track o h S s next stage) {t : ι} {id : Nat} {c : C} (ht : stage t = .owes id c) {r : R} {s' : σ}
    (hs : o.step s c r s') : Track o h (S ++ [(id, c, r)]) s' next (Function.update stage t (.done id c r)) := by
  have hp := k.ok t
  rw [ht] at hp
  refine ⟨k.lin.lin hp.1 hp.2.1 hp.2.2 hs, ?_, ?_, k.fresh, k.freshRet⟩
  · intro t'
    by_cases e : t' = t
    · subst e; simp only [Function.update_self, Stage.Ok]
      exact ⟨hp.1, hp.2.1, by simp⟩
    · rw [Function.update_of_ne e]
      have := k.ok t'
      cases hs : stage t' with
      | none => trivial
      | owes id' c' =>
        rw [hs] at this
        refine ⟨this.1, this.2.1, fun x hx => ?_⟩
        rcases List.mem_append.1 hx with hx | hx
        · exact this.2.2 x hx
        · simp at hx
          subst hx
          intro e'
          simp only at e'
          subst e'
          exact e (k.ids t' t id (by rw [hs]; rfl) (by rw [ht]; rfl))
      | done id' c' r' =>
        rw [hs] at this
        exact ⟨this.1, this.2.1, by simp [this.2.2]⟩
  · intro t1 t2 id' h1 h2
    have key : ∀ t', (Function.update stage t (.done id c r) t').id? = (stage t').id? := by
      intro t'
      by_cases e : t' = t
      · subst e; rw [Function.update_self, ht]; rfl
      · rw [Function.update_of_ne e]
    rw [key] at h1 h2
    exact k.ids _ _ _ h1 h2

/-- A call that has taken effect returns. -/
theorem Track.ret (k : Track o h S s next stage) {t : ι} {id : Nat} {c : C} {r : R} (ht : stage t = .done id c r) :
    Track o (h ++ [.ret id r]) S s next (Function.update stage t .none) := by
  have hp := k.ok t
  rw [ht] at hp
  refine ⟨k.lin.ret hp.2.2, ?_, ?_, ?_, ?_⟩
  · intro t'
    by_cases e : t' = t
    · subst e; rw [Function.update_self]; trivial
    · rw [Function.update_of_ne e]
      have := k.ok t'
      have hne : ∀ id', (stage t').id? = some id' → id' ≠ id := fun id' h1 h2 => by
        subst h2; exact e (k.ids t' t _ h1 (by rw [ht]; rfl))
      cases hs : stage t' with
      | none => trivial
      | owes id' c' =>
        rw [hs] at this hne
        refine ⟨by simp [this.1], fun r' hr' => ?_, this.2.2⟩
        simp at hr'
        rcases hr' with hr' | hr'
        · exact this.2.1 _ hr'
        · exact hne id' rfl hr'.1
      | done id' c' r' =>
        rw [hs] at this hne
        refine ⟨by simp [this.1], fun r' hr' => ?_, this.2.2⟩
        simp at hr'
        rcases hr' with hr' | hr'
        · exact this.2.1 _ hr'
        · exact hne id' rfl hr'.1
  · intro t1 t2 id' h1 h2
    by_cases e1 : t1 = t
    · subst e1; rw [Function.update_self] at h1; cases h1
    · by_cases e2 : t2 = t
      · subst e2; rw [Function.update_self] at h2; cases h2
      · rw [Function.update_of_ne e1] at h1; rw [Function.update_of_ne e2] at h2
        exact k.ids _ _ _ h1 h2
  · intro id' c' h'
    simp at h'; exact k.fresh _ _ h'
  · intro id' r' h'
    simp at h'
    rcases h' with h' | ⟨rfl, _⟩
    · exact k.freshRet _ _ h'
    · exact k.fresh _ _ hp.1

end Verif.Conc
