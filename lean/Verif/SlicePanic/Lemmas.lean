import Verif.SlicePanic.Model
/-!
# The loop of `Filter` up to a panic
-/
namespace Verif.SlicePanic
open Verif.Go

variable {T : Type}

/-- The callback says yes. -/
def keeps (f : T → Option Bool) (x : T) : Bool := f x == some true

theorem set_elems (h : Hp T) (s : Sl) (n : Nat) (v : T) (hn : n < s.len) :
    elems (h.blit s.arr (s.off + n) [v]) s = (elems h s).set n v := by
  refine elems_ext (by simp) (fun k hk => ?_)
  rw [List.getElem?_set]
  by_cases e : n = k
  · subst e
    rw [if_pos rfl, if_pos (by simpa using hk), blit_in _ _ _ _ _ v (Nat.le_refl _) (by simp)]
  · rw [if_neg e, elems_getElem?, if_pos hk, blit_out _ _ _ _ _ _ (by simp; omega)]

theorem head_mem {h : Hp T} {s : Sl} {k : Nat} {x : T} {l : List T} (hk : k < s.len)
    (hd : (elems h s).drop k = x :: l) : h.mem s.arr (s.off + k) = x := by
  have h1 : (elems h s)[k]? = some x := by
    have := congrArg (fun l => l[0]?) hd
    rw [List.getElem?_drop] at this
    simpa only [Nat.add_zero, List.getElem?_cons_zero] using this
  rw [elems_getElem?, if_pos hk] at h1
  exact Option.some.inj h1

/-- What the loop leaves: with `l` the elements and `pre` those before the one at which `f` panics. -/
theorem loop_panic {f : T → Option Bool} {s : Sl} {x : T} {post : List T} (hx : f x = none) :
    ∀ (pre : List T) (r k n : Nat) (h : Hp T), k + r = s.len → n ≤ k → (elems h s).drop k = pre ++ x :: post →
    (∀ y ∈ pre, ∃ b, f y = some b) →
    ∃ h', filterLoop f s r k n h = (none, h') ∧
      elems h' s = (elems h s).take n ++ pre.filter (keeps f) ++ (elems h s).drop (n + (pre.filter (keeps f)).length) ∧
      (∀ b m, (b ≠ s.arr ∨ m < s.off ∨ s.off + s.len ≤ m) → h'.mem b m = h.mem b m) := by
  intro pre
  induction pre with
  | nil =>
    intro r k n h hk hn hd _
    have hkl : k < (elems h s).length := by
      apply Classical.byContradiction
      intro hc
      rw [List.drop_of_length_le (by omega)] at hd
      cases hd
    rw [elems_length] at hkl
    obtain ⟨r, rfl⟩ : ∃ r', r = r' + 1 := ⟨r - 1, by omega⟩
    have hv : h.mem s.arr (s.off + k) = x := by
      exact head_mem hkl hd
    refine ⟨h, ?_, ?_, fun _ _ _ => rfl⟩
    · rw [filterLoop, hv]; simp only [hx]
    · simp
  | cons y pre ih =>
    intro r k n h hk hn hd hf
    have hkl : k < (elems h s).length := by
      apply Classical.byContradiction
      intro hc
      rw [List.drop_of_length_le (by omega)] at hd
      cases hd
    rw [elems_length] at hkl
    obtain ⟨r, rfl⟩ : ∃ r', r = r' + 1 := ⟨r - 1, by omega⟩
    have hv : h.mem s.arr (s.off + k) = y := by
      exact head_mem hkl hd
    have hd' : (elems h s).drop (k + 1) = pre ++ x :: post := by
      have := congrArg List.tail hd
      simpa using this
    obtain ⟨b, hb⟩ := hf y (by simp)
    have hf' : ∀ y ∈ pre, ∃ b, f y = some b := fun z hz => hf z (by simp [hz])
    rw [filterLoop, hv]
    cases b with
    | false =>
      simp only [hb]
      obtain ⟨h', e1, e2, e3⟩ := ih r (k + 1) n h (by omega) (by omega) hd' hf'
      refine ⟨h', e1, ?_, e3⟩
      rw [e2, List.filter_cons_of_neg (by simp [keeps, hb])]
    | true =>
      simp only [hb]
      have hn' : n < s.len := by omega
      have he := set_elems h s n y hn'
      obtain ⟨h', e1, e2, e3⟩ := ih r (k + 1) (n + 1) (h.blit s.arr (s.off + n) [y]) (by omega) (by omega)
        (by rw [he, List.drop_set_of_lt (by omega)]; exact hd') hf'
      refine ⟨h', e1, ?_, fun b m hbm => ?_⟩
      · have h1 : ((elems h s).set n y).take (n + 1) = (elems h s).take n ++ [y] := by
          have hn'' : n < (elems h s).length := by simpa using hn'
          rw [List.take_succ_eq_append_getElem (by simpa using hn')]
          simp [List.take_set_of_le]
        rw [e2, he, List.filter_cons_of_pos (by simp [keeps, hb]), h1, List.drop_set_of_lt (by omega)]
        have hc : n + 1 + (pre.filter (keeps f)).length = n + (y :: pre.filter (keeps f)).length := by
          simp only [List.length_cons]; omega
        rw [hc]
        simp only [List.append_assoc, List.cons_append, List.nil_append]
      · rw [e3 b m hbm]
        exact blit_out _ _ _ _ _ _ (by simp; omega)

theorem loop_ok {f : T → Option Bool} {s : Sl} : ∀ (l : List T) (r k n : Nat) (h : Hp T), k + r = s.len → n ≤ k →
    (elems h s).drop k = l → (∀ y ∈ l, ∃ b, f y = some b) →
    ∃ h', filterLoop f s r k n h = (some (n + (l.filter (keeps f)).length), h') ∧
      (elems h' s).take (n + (l.filter (keeps f)).length) = (elems h s).take n ++ l.filter (keeps f) := by
  intro l
  induction l with
  | nil =>
    intro r k n h hk hn hd _
    have hr : r = 0 := by
      have := congrArg List.length hd
      simp at this; omega
    subst hr
    exact ⟨h, by simp [filterLoop], by simp⟩
  | cons y l ih =>
    intro r k n h hk hn hd hf
    have hkl : k < (elems h s).length := by
      apply Classical.byContradiction
      intro hc
      rw [List.drop_of_length_le (by omega)] at hd
      cases hd
    rw [elems_length] at hkl
    obtain ⟨r, rfl⟩ : ∃ r', r = r' + 1 := ⟨r - 1, by omega⟩
    have hv : h.mem s.arr (s.off + k) = y := by
      exact head_mem hkl hd
    have hd' : (elems h s).drop (k + 1) = l := by
      have := congrArg List.tail hd
      simpa using this
    obtain ⟨b, hb⟩ := hf y (by simp)
    have hf' : ∀ y ∈ l, ∃ b, f y = some b := fun z hz => hf z (by simp [hz])
    rw [filterLoop, hv]
    cases b with
    | false =>
      simp only [hb]
      obtain ⟨h', e1, e2⟩ := ih r (k + 1) n h (by omega) (by omega) hd' hf'
      rw [List.filter_cons_of_neg (by simp [keeps, hb])]
      exact ⟨h', e1, e2⟩
    | true =>
      simp only [hb]
      have hn' : n < s.len := by omega
      have he := set_elems h s n y hn'
      obtain ⟨h', e1, e2⟩ := ih r (k + 1) (n + 1) (h.blit s.arr (s.off + n) [y]) (by omega) (by omega)
        (by rw [he, List.drop_set_of_lt (by omega)]; exact hd') hf'
      have h1 : ((elems h s).set n y).take (n + 1) = (elems h s).take n ++ [y] := by
        have hn'' : n < (elems h s).length := by simpa using hn'
        rw [List.take_succ_eq_append_getElem (by simpa using hn')]
        simp [List.take_set_of_le]
      rw [List.filter_cons_of_pos (by simp [keeps, hb])]
      rw [he, h1] at e2
      have hc : n + 1 + (l.filter (keeps f)).length = n + (y :: l.filter (keeps f)).length := by
        simp only [List.length_cons]; omega
      rw [hc] at e1 e2
      exact ⟨h', e1, by rw [e2]; simp⟩

end Verif.SlicePanic
