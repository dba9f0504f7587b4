import Verif.LazyPanic.Lemmas
/-!
# Property C122: the value of a lazy does not depend on the order of the `Get` calls
-/
namespace Verif.LazyPanic

variable {V : Type}

/-- **C122 (full statement).** Two programs that get lazies in any order, with panics recovered, and that both
get `i`, see the same: the same value, or both a panic. -/
def C122_full : Prop := ∀ (V : Type) (P : Prog V) (is js : List Nat) (rs qs : List (Option V)) (s s' : St V),
  Hist P start is rs s → Hist P start js qs s' → ∀ (i k l : Nat) (r q : Option V),
  is[k]? = some i → js[l]? = some i → rs[k]? = some r → qs[l]? = some q → r = q

theorem good_start (P : Prog V) : Good P start := fun _ _ _ _ e => by cases e

/-- **C122, lazies that have a value.** Whatever the program got before, and whatever panicked, a lazy that has a
value by its definition can be got, and every `Get` of it returns that value. -/
theorem C122_partial (P : Prog V) {is rs} {s : St V} (h : Hist P start is rs s) {i : Nat} {v : V} (hv : Value P i v) :
    (∃ s', Get P s i (some v) s') ∧ (∀ r s', Get P s i r s' → r = some v) ∧
    ∀ k : Nat, is[k]? = some i → rs[k]? = some (some v) := by
  have hg := hist_good h (good_start P)
  have hb : ∀ k, s k ≠ .busy := fun k e => by
    have := (hist_busy h k).1 e
    cases this
  refine ⟨get_exists hv s hg (hb i) (fun k hk => absurd hk (hb k)), fun r s' hr => (get_good hr hg).2 v hv, ?_⟩
  have hf := hist_values h (good_start P)
  intro k hk
  clear h hg hb
  induction hf generalizing k with
  | nil => simp at hk
  | cons h1 _ ih =>
    cases k with
    | zero =>
      simp only [List.getElem?_cons_zero, Option.some.injEq] at hk ⊢
      subst hk
      exact h1 v hv
    | succ k => simpa using ih k (by simpa using hk)

/-- **C122, when no constructor panics**: every `Get` returns the value of the definition. -/
theorem C122_no_panic (P : Prog V) (hn : NoPanic P) {is rs} {s : St V} (h : Hist P start is rs s) :
    List.Forall₂ (fun i r => ∃ v, r = some v ∧ Value P i v) is rs :=
  hist_all hn h (fun _ _ e => by cases e)

/-- A definition gives at most one value. -/
theorem C122_value_unique (P : Prog V) {i : Nat} {v w : V} (h : Value P i v) (h' : Value P i w) : v = w := h.unique h'

/-- **C122, after a panic**: a `Get` that panicked leaves the zero value, which every later `Get` returns as if it had
been built. -/
theorem C122_poisoned (P : Prog V) {s s' : St V} {i : Nat} (h : Get P s i none s') :
    (∀ r s2, Get P s' i r s2 → r = some P.zero ∧ s2 = s') ∧ Get P s' i (some P.zero) s' := by
  have e : s' i = .done P.zero := by
    cases h with
    | build _ x => simp [St.put]
  have h1 : Get P s' i (some P.zero) s' := .hit e
  exact ⟨fun r s2 h2 => by obtain ⟨rfl, rfl⟩ := h2.unique h1; exact ⟨rfl, rfl⟩, h1⟩

/-! ## Cases -/

/-- Lazy 0 panics, lazy 1 is one more than lazy 0, lazy 2 is 7, lazy 3 adds one to lazy 2 and uses lazy 0 if it can. -/
def sample : Prog Nat where
  zero := 0
  ctor
    | 0, _ => .panic
    | 1, [] => .get 0 false
    | 1, r :: _ => .ret (r.getD 100 + 1)
    | 2, _ => .ret 7
    | 3, [] => .get 2 false
    | 3, [_] => .get 0 true
    | 3, r :: q :: _ => .ret (r.getD 100 + q.getD 50)
    | _, _ => .ret 9

example : Value sample 2 7 := .mk (.ret rfl)

/-- A program with a panic that gets lazy 2 before and after. -/
example : ∃ s, Hist sample start [2, 3, 0, 2] [some 7, some 57, some 0, some 7] s := by
  refine ⟨_, .cons (.build rfl (.ret rfl)) (.cons (.build rfl (.got rfl (.hit rfl) (.caught rfl
    (.build rfl (.panic rfl)) (.ret rfl)))) (.cons (.hit rfl) (.cons (.hit rfl) .nil)))⟩

/-- **C122 is false**: got alone, lazy 1 panics; got after lazy 0 has panicked, it has a value made of the zero value. -/
theorem C122_refuted : ¬ C122_full ∧ (∃ s, Hist sample start [1, 1] [none, some 0] s) ∧
    ∃ s, Hist sample start [0, 1] [none, some 1] s := by
  have h1 : ∃ s, Hist sample start [1, 1] [none, some 0] s :=
    ⟨_, .cons (.build rfl (.through rfl (.build rfl (.panic rfl)))) (.cons (.hit rfl) .nil)⟩
  have h2 : ∃ s, Hist sample start [0, 1] [none, some 1] s :=
    ⟨_, .cons (.build rfl (.panic rfl)) (.cons (.build rfl (.got rfl (.hit rfl) (.ret rfl))) .nil)⟩
  refine ⟨fun h => ?_, h1, h2⟩
  obtain ⟨s, h1⟩ := h1
  obtain ⟨s', h2⟩ := h2
  have := h Nat sample _ _ _ _ s s' h1 h2 1 0 1 none (some 1) rfl rfl rfl rfl
  cases this

end Verif.LazyPanic
