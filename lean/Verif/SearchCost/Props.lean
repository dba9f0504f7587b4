import Verif.SearchCost.Lemmas
/-!
# C128: what a search asks
-/
namespace Verif.SearchCost
open Verif.Go Verif.Search

variable {T : Type}

/-- **C128.** With fewer than `2^k` elements, `SearchCustom` calls the comparison at most `k + 1` times
(not at all if there are none), always with an element of the slice first and the value looked for
second, whatever the comparison answers. It panics exactly if a call did, which is then the last one;
else it returns a position in `0..len`. -/
theorem C128_calls (s : List T) (x : T) (cmp : Cmp T) (hs : s.length < 2 ^ 63) (k : Nat) (hk : s.length < 2 ^ k) :
    ∃ o c, searchCustom s x cmp = (o, c) ∧ c.length ≤ k + 1 ∧ (s = [] → c = []) ∧ (∀ p ∈ c, p.1 ∈ s ∧ p.2 = x) ∧
      ((∃ i found, o = .ret (i, found) ∧ i ≤ s.length ∧ ∀ a v b, c = a ++ v :: b → cmp a v.1 v.2 ≠ none) ∨
       (o = .panic ∧ c ≠ [] ∧ ∀ a v b, c = a ++ v :: b → (cmp a v.1 v.2 = none ↔ b = []))) := by
  have fin : ∀ {c : List (T × T)} {p : Bool}, Asked cmp s x [] c p (k + 1) → c.length ≤ k + 1 ∧ (s = [] → c = []) ∧
      (∀ p ∈ c, p.1 ∈ s ∧ p.2 = x) := by
    intro c p A
    obtain ⟨t, e, h1, h2⟩ := A.ext
    rw [List.nil_append] at e
    subst e
    refine ⟨h1, fun hnil => ?_, h2⟩
    cases c with
    | nil => rfl
    | cons q c => exact absurd (h2 q (by simp)).1 (by simp [hnil])
  have quiet : ∀ {c : List (T × T)}, Asked cmp s x [] c false (k + 1) → ∀ a v b, c = a ++ v :: b → cmp a v.1 v.2 ≠ none := by
    intro c A a v b e h
    exact absurd ((A.calm a v b e (by simp)).1 h).1 (by simp)
  have loud : ∀ {c : List (T × T)}, Asked cmp s x [] c true (k + 1) →
      c ≠ [] ∧ ∀ a v b, c = a ++ v :: b → (cmp a v.1 v.2 = none ↔ b = []) := by
    intro c A
    refine ⟨fun hc => ?_, fun a v b e => by simpa using A.calm a v b e (by simp)⟩
    have := A.more rfl
    simp [hc] at this
  unfold searchCustom
  rcases loop_asked cmp s x hs k 0 s.length [] (by omega) (by omega) (Nat.le_refl _) with ⟨r, c, e, hr, A⟩ | ⟨c, e, A⟩
  · rw [e]
    simp only
    by_cases hlt : r < s.length
    · rw [List.getElem?_eq_getElem hlt]
      have hmem : s[r] ∈ s := List.getElem_mem hlt
      simp only
      cases hc : cmp c s[r] x with
      | none =>
        have B := A.trans (Asked.last c hmem hc 0)
        obtain ⟨h1, h2, h3⟩ := fin B
        exact ⟨_, _, rfl, h1, h2, h3, Or.inr ⟨rfl, loud B⟩⟩
      | some a =>
        have B := A.trans (Asked.cons hmem hc (Asked.refl cmp s x _ 0))
        obtain ⟨h1, h2, h3⟩ := fin B
        exact ⟨_, _, rfl, h1, h2, h3, Or.inl ⟨r, _, rfl, hr, quiet B⟩⟩
    · rw [List.getElem?_eq_none (by omega)]
      obtain ⟨h1, h2, h3⟩ := fin (A.mono (Nat.le_succ k))
      exact ⟨_, _, rfl, h1, h2, h3, Or.inl ⟨r, _, rfl, hr, quiet (A.mono (Nat.le_succ k))⟩⟩
  · rw [e]
    have B := A.mono (Nat.le_succ k)
    obtain ⟨h1, h2, h3⟩ := fin B
    exact ⟨_, _, rfl, h1, h2, h3, Or.inr ⟨rfl, loud B⟩⟩

/-- **C128, the bound is reached**: with `2^k - 1` elements, for `k > 0`, a comparison that finds
everything equal is called `k + 1` times. -/
theorem C128_tight (s : List T) (x : T) (hs : s.length < 2 ^ 63) (k : Nat) (hk : s.length + 1 = 2 ^ k) (h0 : 0 < k) :
    (searchCustom s x (fun _ _ _ => some 0)).2.length = k + 1 := by
  have hp : 2 ^ 1 ≤ 2 ^ k := Nat.pow_le_pow_right (by omega) h0
  obtain ⟨t, e, hlen⟩ := loop_left s x hs k s.length [] hk (Nat.le_refl _)
  unfold searchCustom
  rw [e]
  simp only
  rw [List.getElem?_eq_getElem (by omega)]
  simp [hlen]

/-- **C128, the results are those of C78**: for a comparison without memory the outcome is that of the
model without calls. -/
theorem C128_same (s : List T) (x : T) (f : T → T → Int) :
    (searchCustom s x (fun _ a b => some (f a b))).1 = Search.searchCustom s x f := by
  have h := loop_pure f s x s.length 0 s.length [] (by omega)
  unfold searchCustom Search.searchCustom
  rw [← h]
  cases hl : loop (fun _ a b => some (f a b)) s x 0 s.length [] with
  | mk o c =>
    cases o with
    | ret i =>
      simp only [bind, Outcome.bind_ret, index]
      by_cases hi : i < s.length
      · rw [List.getElem?_eq_getElem hi, if_pos hi]
        rfl
      · rw [List.getElem?_eq_none (by omega), if_neg hi]
    | panic => rfl
    | hang => rfl

/-- **C128 for `Search`**, which compares with the operators: at most `k + 1` elements are looked at,
and the result is that of C78. -/
theorem C128_search (lt : T → T → Bool) (s : List T) (x : T) (hs : s.length < 2 ^ 63) (k : Nat) (hk : s.length < 2 ^ k) :
    (search lt s x).2.length ≤ k + 1 ∧ (search lt s x).1 = Search.search lt s x := by
  obtain ⟨o, c, e, h, _⟩ := C128_calls s x (fun _ i j => some (if lt i j then -1 else if lt j i then 1 else 0)) hs k hk
  refine ⟨?_, C128_same s x _⟩
  unfold search
  rw [e]
  exact h

/-- Five elements, `k = 3`: a search for 4 asks about 3, 5, 4 and once more about 4; and a comparison that
panics in its second call. -/
example : searchCustom [1, 2, 3, 4, 5] 4 (fun _ (a b : Int) => some (a - b)) =
    (.ret (3, true), [(3, 4), (5, 4), (4, 4), (4, 4)]) := by
  simp [searchCustom, loop]

example : searchCustom [1, 2, 3, 4, 5] 4 (fun c (a b : Int) => if c.length = 1 then none else some (a - b)) =
    (.panic, [(3, 4), (5, 4)]) := by
  simp [searchCustom, loop]

end Verif.SearchCost
