import Verif.SearchCost.Model
import Verif.Search.Props
/-!
# The calls of one search
-/
namespace Verif.SearchCost
open Verif.Go Verif.Search

variable {T : Type}

/-- What a stretch of the search adds to the calls `c`: comparisons of elements of `s` with `x`, the
last of them the only one that may have panicked. -/
structure Asked (cmp : Cmp T) (s : List T) (x : T) (c c' : List (T × T)) (panicked : Bool) (n : Nat) : Prop where
  ext : ∃ t, c' = c ++ t ∧ t.length ≤ n ∧ (∀ p ∈ t, p.1 ∈ s ∧ p.2 = x)
  calm : ∀ a v b, c' = a ++ v :: b → c.length ≤ a.length → (cmp a v.1 v.2 = none ↔ panicked = true ∧ b = [])
  more : panicked = true → c.length < c'.length

theorem Asked.refl (cmp : Cmp T) (s : List T) (x : T) (c : List (T × T)) (n : Nat) : Asked cmp s x c c false n where
  ext := ⟨[], by simp, by simp, by simp⟩
  calm := fun a v b e h => by
    have := congrArg List.length e
    simp at this
    omega
  more := by simp

theorem Asked.last {cmp : Cmp T} {s : List T} {x v : T} (c : List (T × T)) (hv : v ∈ s) (h : cmp c v x = none) (n : Nat) :
    Asked cmp s x c (c ++ [(v, x)]) true (n + 1) where
  ext := ⟨[(v, x)], rfl, by simp, by simpa using hv⟩
  calm := fun a w b e hl => by
    have hlen := congrArg List.length e
    simp at hlen
    obtain ⟨e1, e2⟩ := List.append_inj e (by omega)
    obtain ⟨rfl, rfl⟩ := List.cons.inj e2
    subst e1
    simp [h]
  more := by simp

theorem Asked.cons {cmp : Cmp T} {s : List T} {x v : T} {c c' : List (T × T)} {p : Bool} {n : Nat} (hv : v ∈ s) {y : Int}
    (h : cmp c v x = some y) (r : Asked cmp s x (c ++ [(v, x)]) c' p n) : Asked cmp s x c c' p (n + 1) where
  ext := by
    obtain ⟨t, e, h1, h2⟩ := r.ext
    refine ⟨(v, x) :: t, by simp [e], by simpa using h1, ?_⟩
    intro q hq
    rcases List.mem_cons.1 hq with rfl | hq
    · exact ⟨hv, rfl⟩
    · exact h2 q hq
  calm := fun a w b e hl => by
    by_cases hc : (c ++ [(v, x)]).length ≤ a.length
    · exact r.calm a w b e hc
    · obtain ⟨t, e', _, _⟩ := r.ext
      have hs := r.more
      rw [e] at e'
      rw [List.append_assoc] at e'
      obtain ⟨rfl, e2⟩ := List.append_inj e' (by simp at hc; omega)
      obtain ⟨rfl, rfl⟩ := List.cons.inj e2
      rw [h]
      simp only [reduceCtorEq, false_iff, not_and]
      intro hp hb
      have := hs hp
      rw [e] at this
      simp only [List.length_append, List.length_cons, List.length_nil] at this
      rw [hb] at this
      simp at this
  more := fun hp => by
    have := r.more hp
    simp at this
    omega

theorem Asked.mono {cmp : Cmp T} {s : List T} {x : T} {c c' : List (T × T)} {p : Bool} {n m : Nat}
    (r : Asked cmp s x c c' p n) (h : n ≤ m) : Asked cmp s x c c' p m where
  ext := by
    obtain ⟨t, e, h1, h2⟩ := r.ext
    exact ⟨t, e, by omega, h2⟩
  calm := r.calm
  more := r.more

theorem Asked.trans {cmp : Cmp T} {s : List T} {x : T} {c c' c'' : List (T × T)} {p : Bool} {n m : Nat}
    (r : Asked cmp s x c c' false n) (q : Asked cmp s x c' c'' p m) : Asked cmp s x c c'' p (n + m) where
  ext := by
    obtain ⟨t, e, h1, h2⟩ := r.ext
    obtain ⟨u, e', h1', h2'⟩ := q.ext
    refine ⟨t ++ u, by rw [e', e, List.append_assoc], by simp; omega, fun z hz => ?_⟩
    rcases List.mem_append.1 hz with hz | hz
    · exact h2 z hz
    · exact h2' z hz
  calm := fun a w b e hl => by
    by_cases hc : c'.length ≤ a.length
    · exact q.calm a w b e hc
    · obtain ⟨u, e', _, _⟩ := q.ext
      have hs := q.more
      rw [e] at e'
      have ea : ∃ b', c' = a ++ w :: b' ∧ b = b' ++ u := by
        rcases List.append_eq_append_iff.1 e' with ⟨z, hz1, hz2⟩ | ⟨z, hz1, hz2⟩
        · cases z with
          | nil => simp at hz1; rw [hz1] at hc; simp at hc
          | cons w' z =>
            simp only [List.cons_append, List.cons.injEq] at hz2
            exact ⟨z, by rw [hz1, hz2.1], hz2.2⟩
        · rw [hz1] at hc; simp at hc
      obtain ⟨b', e1, e2⟩ := ea
      have := r.calm a w b' e1 hl
      simp only [Bool.false_eq_true, false_and, iff_false] at this
      simp only [this, false_iff, not_and]
      intro hp hb
      have hlt := hs hp
      rw [e, e1, e2, List.length_append, List.length_append] at hlt
      rw [e2] at hb
      have hu := (List.append_eq_nil_iff.1 hb)
      rw [hu.1, hu.2] at hlt
      simp at hlt
  more := fun hp => by
    have := q.more hp
    obtain ⟨t, e, _, _⟩ := r.ext
    rw [e] at this
    simp at this
    omega

theorem loop_asked (cmp : Cmp T) (s : List T) (x : T) (hs : s.length < 2 ^ 63) : ∀ (k i j : Nat) (c : List (T × T)),
    j - i < 2 ^ k → i ≤ j → j ≤ s.length →
      (∃ r c', loop cmp s x i j c = (.ret r, c') ∧ r ≤ j ∧ Asked cmp s x c c' false k) ∨
      (∃ c', loop cmp s x i j c = (.panic, c') ∧ Asked cmp s x c c' true k)
  | 0, i, j, c, hd, hij, hj => by
    left
    refine ⟨i, c, ?_, hij, Asked.refl _ _ _ _ _⟩
    rw [loop, if_neg (by simp at hd; omega)]
  | k + 1, i, j, c, hd, hij, hj => by
    by_cases hlt : i < j
    · have hmod : (i + j) % 2 ^ 64 = i + j := Nat.mod_eq_of_lt (by omega)
      have hh : (i + j) / 2 < s.length := by omega
      have hmem : s[(i + j) / 2] ∈ s := List.getElem_mem hh
      rw [loop, if_pos hlt]
      simp only [hmod]
      rw [if_neg (by omega), List.getElem?_eq_getElem hh]
      simp only
      cases hc : cmp c s[(i + j) / 2] x with
      | none => exact Or.inr ⟨_, rfl, Asked.last c hmem hc k⟩
      | some a =>
        simp only
        by_cases ha : a < 0
        · rw [if_pos ha]
          rcases loop_asked cmp s x hs k ((i + j) / 2 + 1) j (c ++ [(s[(i + j) / 2], x)]) (by omega) (by omega) hj with
            ⟨r, c', e, h1, h2⟩ | ⟨c', e, h2⟩
          · exact Or.inl ⟨r, c', e, h1, Asked.cons hmem hc h2⟩
          · exact Or.inr ⟨c', e, Asked.cons hmem hc h2⟩
        · rw [if_neg ha]
          rcases loop_asked cmp s x hs k i ((i + j) / 2) (c ++ [(s[(i + j) / 2], x)]) (by omega) (by omega) (by omega) with
            ⟨r, c', e, h1, h2⟩ | ⟨c', e, h2⟩
          · exact Or.inl ⟨r, c', e, by omega, Asked.cons hmem hc h2⟩
          · exact Or.inr ⟨c', e, Asked.cons hmem hc h2⟩
    · left
      refine ⟨i, c, ?_, hij, Asked.refl _ _ _ _ _⟩
      rw [loop, if_neg hlt]

theorem loop_pure (f : T → T → Int) (s : List T) (x : T) : ∀ (d i j : Nat) (c : List (T × T)), j - i ≤ d →
    (loop (fun _ a b => some (f a b)) s x i j c).1 = Search.loop f s x i j
  | 0, i, j, c, hd => by
    rw [loop, Search.loop, if_neg (by omega), if_neg (by omega)]
  | d + 1, i, j, c, hd => by
    rw [loop, Search.loop]
    split
    · simp only [index]
      split
      · rfl
      · rename_i h
        cases s[(i + j) % 2 ^ 64 / 2]? with
        | none => rfl
        | some v =>
          simp only
          split
          · exact loop_pure f s x d _ _ _ (by omega)
          · exact loop_pure f s x d _ _ _ (by omega)
    · rfl

/-- A comparison that never answers "smaller" keeps the left halves. -/
theorem loop_left (s : List T) (x : T) (hs : s.length < 2 ^ 63) : ∀ (k j : Nat) (c : List (T × T)), j + 1 = 2 ^ k →
    j ≤ s.length → ∃ t, loop (fun _ _ _ => some 0) s x 0 j c = (.ret 0, c ++ t) ∧ t.length = k
  | 0, j, c, hj, _ => ⟨[], by rw [loop, if_neg (by simp at hj; omega)]; simp, rfl⟩
  | k + 1, j, c, hj, hl => by
    have h2 : 2 ^ (k + 1) = 2 * 2 ^ k := by rw [Nat.pow_succ]; omega
    have hp : 0 < 2 ^ k := Nat.pow_pos (by omega)
    have hmod : (0 + j) % 2 ^ 64 = j := by rw [Nat.zero_add]; exact Nat.mod_eq_of_lt (by omega)
    have hh : j / 2 < s.length := by omega
    obtain ⟨t, e, hlen⟩ := loop_left s x hs k (j / 2) (c ++ [(s[j / 2], x)]) (by omega) (by omega)
    refine ⟨(s[j / 2], x) :: t, ?_, by simp [hlen]⟩
    rw [loop, if_pos (by omega)]
    simp only [hmod]
    rw [if_neg (by omega), List.getElem?_eq_getElem hh]
    simp only
    rw [if_neg (by decide), e]
    simp

end Verif.SearchCost
