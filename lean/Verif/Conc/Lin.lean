import Verif.Prelude
/-!
# Linearizability

A history is the sequence of invocations and returns an observer sees. It is linearizable with
respect to a sequential object if some sequential run of calls contains every returned call with its
result (and possibly some calls still pending), each once, and keeps the order of calls that did not
overlap.
-/
namespace Verif.Conc

variable {σ C R : Type}

/-- What an observer sees: call number `id` is invoked / returns `r`. -/
inductive Event (C R : Type) where
  | inv (id : Nat) (c : C)
  | ret (id : Nat) (r : R)

/-- A sequential object: initial state and which result and new state a call may have. -/
structure Obj (σ C R : Type) where
  init : σ
  step : σ → C → R → σ → Prop

/-- `S` is a run of the sequential object ending in state `s`. -/
inductive Legal (o : Obj σ C R) : List (Nat × C × R) → σ → Prop
  | nil : Legal o [] o.init
  | snoc {S s s' id c r} : Legal o S s → o.step s c r s' → Legal o (S ++ [(id, c, r)]) s'

/-- `x` occurs before `y` in `l`. -/
def Before {α : Type} (l : List α) (x y : α) : Prop := ∃ l1 l2 l3, l = l1 ++ x :: (l2 ++ y :: l3)

/-- `S`, ending in `s`, is a linearization of the history `h`. -/
structure LinTo (o : Obj σ C R) (h : List (Event C R)) (S : List (Nat × C × R)) (s : σ) : Prop where
  legal : Legal o S s
  once : (S.map (·.1)).Nodup
  invoked : ∀ e ∈ S, Event.inv e.1 e.2.1 ∈ h
  returned : ∀ id r, Event.ret id r ∈ h → ∃ c, (id, c, r) ∈ S
  realtime : ∀ x ∈ S, ∀ y ∈ S, ∀ r c, Before h (.ret x.1 r) (.inv y.1 c) → Before S x y

/-- The history has a linearization. -/
def Linearizable (o : Obj σ C R) (h : List (Event C R)) : Prop := ∃ S s, LinTo o h S s

theorem Before.mono {α : Type} {l : List α} {x y : α} (h : Before l x y) (z : α) : Before (l ++ [z]) x y := by
  obtain ⟨l1, l2, l3, rfl⟩ := h
  exact ⟨l1, l2, l3 ++ [z], by simp⟩

theorem Before.last {α : Type} {l : List α} {x : α} (h : x ∈ l) (z : α) : Before (l ++ [z]) x z := by
  obtain ⟨l1, l2, rfl⟩ := List.append_of_mem h
  exact ⟨l1, l2, [], by simp⟩

theorem Before.mem {α : Type} {l : List α} {x y : α} (h : Before l x y) : x ∈ l ∧ y ∈ l := by
  obtain ⟨l1, l2, l3, rfl⟩ := h
  simp

theorem Before.of_append {α : Type} {l : List α} {x y z : α} (h : Before (l ++ [z]) x y) :
    Before l x y ∨ (y = z ∧ x ∈ l) := by
  obtain ⟨l1, l2, l3, e⟩ := h
  rcases List.eq_nil_or_concat l3 with rfl | ⟨l4, a, rfl⟩
  · have e' : l ++ [z] = (l1 ++ x :: l2) ++ [y] := by simp [e]
    have := List.append_inj' e' rfl
    obtain ⟨h1, h2⟩ := this
    simp at h2
    exact .inr ⟨h2.symm, by rw [h1]; simp⟩
  · have e' : l ++ [z] = (l1 ++ x :: (l2 ++ y :: l4)) ++ [a] := by simp [e]
    have := List.append_inj' e' rfl
    exact .inl ⟨l1, l2, l4, this.1⟩

theorem LinTo.nil (o : Obj σ C R) : LinTo o [] [] o.init :=
  ⟨.nil, by simp, by simp, by simp, by simp⟩

/-- A new call with a fresh number is invoked. -/
theorem LinTo.inv {o : Obj σ C R} {h : List (Event C R)} {S : List (Nat × C × R)} {s : σ}
    (t : LinTo o h S s) (id : Nat) (c : C) (hf : ∀ e ∈ S, e.1 ≠ id) : LinTo o (h ++ [.inv id c]) S s := by
  refine ⟨t.legal, t.once, fun e he => by simp [t.invoked e he], ?_, ?_⟩
  · intro id' r hr
    simp at hr
    exact t.returned id' r hr
  · intro x hx y hy r c' hb
    rcases hb.of_append with hb | ⟨he, _⟩
    · exact t.realtime x hx y hy r c' hb
    · simp at he; exact absurd he.1 (hf y hy)

/-- A pending call takes effect. -/
theorem LinTo.lin {o : Obj σ C R} {h : List (Event C R)} {S : List (Nat × C × R)} {s s' : σ}
    (t : LinTo o h S s) {id : Nat} {c : C} {r : R} (hi : Event.inv id c ∈ h)
    (hr : ∀ r, Event.ret id r ∉ h) (hf : ∀ e ∈ S, e.1 ≠ id) (hs : o.step s c r s') :
    LinTo o h (S ++ [(id, c, r)]) s' := by
  refine ⟨.snoc t.legal hs, ?_, ?_, ?_, ?_⟩
  · rw [List.map_append, List.nodup_append]
    refine ⟨t.once, by simp, ?_⟩
    intro a ha b hb e
    subst e
    simp at ha hb
    obtain ⟨c', r', ha⟩ := ha
    exact hf _ ha hb
  · intro e he
    rcases List.mem_append.1 he with he | he
    · exact t.invoked e he
    · simp at he; subst he; exact hi
  · intro id' r' h'
    obtain ⟨c', hc'⟩ := t.returned id' r' h'
    exact ⟨c', by simp [hc']⟩
  · intro x hx y hy r' c' hb
    rcases List.mem_append.1 hx with hx | hx
    · rcases List.mem_append.1 hy with hy | hy
      · exact (t.realtime x hx y hy r' c' hb).mono _
      · simp at hy; subst hy; exact Before.last hx _
    · simp at hx; subst hx
      exact absurd hb.mem.1 (hr r')

/-- A call that has taken effect returns. -/
theorem LinTo.ret {o : Obj σ C R} {h : List (Event C R)} {S : List (Nat × C × R)} {s : σ}
    (t : LinTo o h S s) {id : Nat} {c : C} {r : R} (hm : (id, c, r) ∈ S) :
    LinTo o (h ++ [.ret id r]) S s := by
  refine ⟨t.legal, t.once, fun e he => by simp [t.invoked e he], ?_, ?_⟩
  · intro id' r' hr
    simp at hr
    rcases hr with hr | ⟨rfl, rfl⟩
    · exact t.returned id' r' hr
    · exact ⟨c, hm⟩
  · intro x hx y hy r' c' hb
    rcases hb.of_append with hb | ⟨he, _⟩
    · exact t.realtime x hx y hy r' c' hb
    · cases he

end Verif.Conc
