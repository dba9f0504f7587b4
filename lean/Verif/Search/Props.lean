import Verif.Search.Model
import Mathlib.Order.Defs.LinearOrder
/-!
# Properties of `searchx`
-/
namespace Verif.Search
open Verif.Go

variable {T : Type}

/-- The comparison agrees with the order of the slice: smaller elements come first, then equal ones, then larger ones. -/
def Consistent (cmp : T → T → Int) (s : List T) (x : T) : Prop :=
  s.Pairwise (fun a b => (cmp b x < 0 → cmp a x < 0) ∧ (cmp b x ≤ 0 → cmp a x ≤ 0))

theorem loop_spec (cmp : T → T → Int) (s : List T) (x : T) (hs : s.length < 2 ^ 63) : ∀ (d i j : Nat), j - i ≤ d → i ≤ j → j ≤ s.length →
    (∀ v, 0 < i → s[i - 1]? = some v → cmp v x < 0) → (∀ v, s[j]? = some v → ¬ cmp v x < 0) →
    ∃ r, loop cmp s x i j = .ret r ∧ i ≤ r ∧ r ≤ j ∧ (∀ v, 0 < r → s[r - 1]? = some v → cmp v x < 0) ∧ (∀ v, s[r]? = some v → ¬ cmp v x < 0)
  | 0, i, j, hd, hij, hj, hP, hQ => by
    obtain rfl : i = j := by omega
    rw [loop, if_neg (by omega)]
    exact ⟨i, rfl, Nat.le_refl _, Nat.le_refl _, hP, hQ⟩
  | d + 1, i, j, hd, hij, hj, hP, hQ => by
    rw [loop]
    by_cases hlt : i < j
    · rw [if_pos hlt]
      have e : (i + j) % 2 ^ 64 / 2 = (i + j) / 2 := by rw [Nat.mod_eq_of_lt (by omega)]
      simp only [e]
      rw [if_neg (by omega)]
      have hh : (i + j) / 2 < s.length := by omega
      have hi : index s ((i + j) / 2) = .ret s[(i + j) / 2] := by unfold index; rw [List.getElem?_eq_getElem hh]
      rw [hi]
      simp only
      by_cases hc : cmp s[(i + j) / 2] x < 0
      · rw [if_pos hc]
        obtain ⟨r, h1, h2, h3, h4, h5⟩ := loop_spec cmp s x hs d ((i + j) / 2 + 1) j (by omega) (by omega) hj
          (fun v _ hv => by
            rw [Nat.add_sub_cancel, List.getElem?_eq_getElem hh] at hv
            cases hv; exact hc) hQ
        exact ⟨r, h1, by omega, h3, h4, h5⟩
      · rw [if_neg hc]
        obtain ⟨r, h1, h2, h3, h4, h5⟩ := loop_spec cmp s x hs d i ((i + j) / 2) (by omega) (by omega) (by omega) hP
          (fun v hv => by
            rw [List.getElem?_eq_getElem hh] at hv
            cases hv; exact hc)
        exact ⟨r, h1, h2, by omega, h4, h5⟩
    · rw [if_neg hlt]
      obtain rfl : i = j := by omega
      exact ⟨i, rfl, Nat.le_refl _, Nat.le_refl _, hP, hQ⟩

/-- C78, for any slice and comparison: the search returns, with an index of the slice or its length at which the comparison changes,
and whether the element there is equal. -/
theorem C78_any (s : List T) (x : T) (cmp : T → T → Int) (hs : s.length < 2 ^ 63) : ∃ i found, searchCustom s x cmp = .ret (i, found) ∧
    i ≤ s.length ∧ (∀ v, 0 < i → s[i - 1]? = some v → cmp v x < 0) ∧ (∀ v, s[i]? = some v → 0 ≤ cmp v x) ∧
    (found = true ↔ ∃ v, s[i]? = some v ∧ cmp v x = 0) := by
  obtain ⟨r, h1, _, h3, h4, h5⟩ := loop_spec cmp s x hs s.length 0 s.length (by omega) (by omega) (Nat.le_refl _) (fun v h => by omega)
    (fun v h => by simp at h)
  unfold searchCustom
  rw [h1]
  simp only [bind, Outcome.bind_ret]
  by_cases hr : r < s.length
  · rw [if_pos hr]
    have hi : index s r = .ret s[r] := by unfold index; rw [List.getElem?_eq_getElem hr]
    rw [hi]
    refine ⟨r, _, rfl, h3, h4, fun v hv => Int.not_lt.1 (h5 v hv), ?_⟩
    rw [List.getElem?_eq_getElem hr]
    simp
  · rw [if_neg hr]
    refine ⟨r, false, rfl, h3, h4, fun v hv => Int.not_lt.1 (h5 v hv), ?_⟩
    rw [List.getElem?_eq_none (by omega)]
    simp

/-- C78, for a comparison that agrees with the order: the index is the number of smaller elements, so the leftmost possible
position, and an equal element is found exactly when there is one. -/
theorem C78_consistent (s : List T) (x : T) (cmp : T → T → Int) (hs : s.length < 2 ^ 63) (hc : Consistent cmp s x) :
    ∃ found, searchCustom s x cmp = .ret (s.countP (fun v => decide (cmp v x < 0)), found) ∧ (found = true ↔ ∃ v ∈ s, cmp v x = 0) := by
  obtain ⟨i, found, h1, h2, h3, h4, h5⟩ := C78_any s x cmp hs
  have hp := List.pairwise_iff_getElem.1 hc
  have low : ∀ p (h : p < s.length), p < i → cmp s[p] x < 0 := by
    intro p h hpi
    have hl : cmp s[i - 1] x < 0 := h3 _ (by omega) (List.getElem?_eq_getElem (by omega))
    rcases Nat.lt_or_ge p (i - 1) with hlt | hge
    · exact (hp p (i - 1) h (by omega) hlt).1 hl
    · obtain rfl : p = i - 1 := by omega
      exact hl
  have high : ∀ p (h : p < s.length), i ≤ p → 0 ≤ cmp s[p] x := by
    intro p h hip
    have hl : 0 ≤ cmp s[i] x := h4 _ (List.getElem?_eq_getElem (by omega))
    rcases Nat.lt_or_ge i p with hlt | hge
    · by_contra hneg
      have := (hp i p (by omega) h hlt).1 (by omega)
      omega
    · obtain rfl : p = i := by omega
      exact hl
  have hcount : s.countP (fun v => decide (cmp v x < 0)) = i := by
    rw [← List.take_append_drop i s, List.countP_append]
    have e1 : (s.take i).countP (fun v => decide (cmp v x < 0)) = (s.take i).length := by
      rw [List.countP_eq_length]
      intro v hv
      obtain ⟨p, hp', rfl⟩ := List.mem_iff_getElem.1 hv
      rw [List.length_take] at hp'
      rw [List.getElem_take]
      simpa using low p (by omega) (by omega)
    have e2 : (s.drop i).countP (fun v => decide (cmp v x < 0)) = 0 := by
      rw [List.countP_eq_zero]
      intro v hv
      obtain ⟨p, hp', rfl⟩ := List.mem_iff_getElem.1 hv
      rw [List.length_drop] at hp'
      rw [List.getElem_drop]
      simpa using high (i + p) (by omega) (by omega)
    rw [e1, e2, List.length_take]
    omega
  refine ⟨found, by rw [hcount]; exact h1, h5.trans ⟨?_, ?_⟩⟩
  · rintro ⟨v, hv, h0⟩
    exact ⟨v, List.mem_of_getElem? hv, h0⟩
  · rintro ⟨v, hv, h0⟩
    obtain ⟨p, hpl, rfl⟩ := List.mem_iff_getElem.1 hv
    have hip : i ≤ p := by
      by_contra hlt
      have := low p hpl (by omega)
      omega
    refine ⟨s[i], List.getElem?_eq_getElem (by omega), ?_⟩
    rcases Nat.lt_or_ge i p with hlt | hge
    · have h6 := (hp i p (by omega) hpl hlt).2 (by omega)
      have h7 := high i (by omega) (Nat.le_refl _)
      omega
    · obtain rfl : p = i := by omega
      exact h0

/-- The comparison of `Search`, for a linear order. -/
theorem cmp_linear [LinearOrder T] (a b : T) :
    ((if decide (a < b) then (-1 : Int) else if decide (b < a) then 1 else 0) < 0 ↔ a < b) ∧
    ((if decide (a < b) then (-1 : Int) else if decide (b < a) then 1 else 0) = 0 ↔ a = b) ∧
    ((if decide (a < b) then (-1 : Int) else if decide (b < a) then 1 else 0) ≤ 0 ↔ a ≤ b) := by
  rcases lt_trichotomy a b with h | h | h
  · simp [h, h.ne, h.le]
  · subst h; simp
  · have h' := not_lt_of_ge h.le
    simp [h, h', h.ne', not_le_of_gt h]

/-- C78: `Search` in a sorted slice of a linearly ordered type (integers, strings). -/
theorem C78_sorted [LinearOrder T] (s : List T) (x : T) (hs : s.length < 2 ^ 63) (h : s.Pairwise (fun a b => a ≤ b)) :
    search (fun a b => decide (a < b)) s x = .ret (s.countP (fun v => decide (v < x)), decide (x ∈ s)) := by
  have hc : Consistent (fun a b : T => if decide (a < b) then (-1 : Int) else if decide (b < a) then 1 else 0) s x := by
    refine h.imp ?_
    intro a b hab
    refine ⟨fun hb => (cmp_linear a x).1.2 (lt_of_le_of_lt hab ((cmp_linear b x).1.1 hb)),
      fun hb => (cmp_linear a x).2.2.2 (le_trans hab ((cmp_linear b x).2.2.1 hb))⟩
  obtain ⟨found, h1, h2⟩ := C78_consistent s x _ hs hc
  have h3 : found = decide (x ∈ s) := by
    rw [Bool.eq_iff_iff, h2, decide_eq_true_eq]
    constructor
    · rintro ⟨v, hv, e⟩
      rw [← (cmp_linear v x).2.1.1 e]; exact hv
    · exact fun hx => ⟨x, hx, (cmp_linear x x).2.1.2 rfl⟩
  unfold search
  rw [h1, h3]
  congr 2
  apply List.countP_congr
  intro v _
  have := (cmp_linear v x).1
  exact decide_eq_true_iff.trans (this.trans decide_eq_true_iff.symm)

/-- C78: in any slice, sorted or not, an index that is reported as found holds the element. -/
theorem C78_found [LinearOrder T] (s : List T) (x : T) (hs : s.length < 2 ^ 63) :
    ∃ i found, search (fun a b => decide (a < b)) s x = .ret (i, found) ∧ i ≤ s.length ∧ (found = true → s[i]? = some x) := by
  obtain ⟨i, found, h1, h2, _, _, h5⟩ := C78_any s x (fun a b => if decide (a < b) then (-1 : Int) else if decide (b < a) then 1 else 0) hs
  refine ⟨i, found, h1, h2, fun hf => ?_⟩
  obtain ⟨v, hv, e⟩ := h5.1 hf
  rw [hv, (cmp_linear v x).2.1.1 e]

/-! Floats: numbers and NaN, which is neither smaller nor larger than nor equal to anything. -/

abbrev Fl := Option Int

def flLt : Fl → Fl → Bool
  | some a, some b => decide (a < b)
  | _, _ => false

def flEq : Fl → Fl → Bool
  | some a, some b => decide (a = b)
  | _, _ => false

/-- The full claim, for floats too: what is found is equal. -/
def C78_full_float : Prop := ∀ (s : List Fl) (x : Fl) (i : Nat), search flLt s x = .ret (i, true) → ∃ v, s[i]? = some v ∧ flEq v x = true

/-- It fails for NaN: the number 1 is found in a slice that holds only NaN. -/
theorem C78_float_refuted : search flLt [none] (some 1) = .ret (0, true) ∧ ¬ C78_full_float := by
  have h : search flLt [none] (some 1) = .ret (0, true) := by
    obtain ⟨i, found, h1, h2, h3, h4, h5⟩ := C78_any [none] (some 1 : Fl) (fun i j => if flLt i j then (-1 : Int) else if flLt j i then 1 else 0) (by decide)
    have hi : i = 0 := by
      rcases i with _ | _ | i
      · rfl
      · exact absurd (h3 none (by decide) rfl) (by decide)
      · simp at h2
    subst hi
    have hf : found = true := h5.2 ⟨none, rfl, by decide⟩
    rw [hf] at h1
    exact h1
  refine ⟨h, fun hf => ?_⟩
  obtain ⟨v, hv, he⟩ := hf _ _ _ h
  simp only [List.getElem?_cons_zero, Option.some.injEq] at hv
  subst hv
  cases he

example : ([1, 3, 3, 7] : List Nat).Pairwise (fun a b => a ≤ b) ∧ ([1, 3, 3, 7] : List Nat).countP (fun v => decide (v < 3)) = 1 := by decide
example : search (fun a b => decide (a < b)) ([1, 3, 3, 7] : List Nat) 3 = .ret (1, true) := by
  rw [C78_sorted _ _ (by decide) (by decide)]; rfl
/-- Descending slices with a reversed comparison. -/
example : Consistent (fun a b => b - a) ([7, 3, 1] : List Int) 3 := by unfold Consistent; decide

end Verif.Search
