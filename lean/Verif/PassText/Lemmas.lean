import Verif.PassText.Spec
import Verif.ConvNum.Lemmas
import Verif.PassHash.Lemmas
/-!
# Lemmas for C174
-/
namespace Verif.PassText
open Verif.Go Verif.PassHash Verif.ConvNum

/-- Up to the first `c` the parts agree, and after it. -/
theorem cut {c : UInt8} {a b x y : List UInt8} (ha : c ∉ a) (hb : c ∉ b) (h : a ++ c :: x = b ++ c :: y) : a = b ∧ x = y := by
  induction a generalizing b with
  | nil =>
    cases b with
    | nil => simpa using h
    | cons d b => simp at h; exact absurd (by simp [h.1]) hb
  | cons d a ih =>
    cases b with
    | nil => simp at h; exact absurd (by simp [h.1]) ha
    | cons e b =>
      simp only [List.cons_append, List.cons.injEq] at h
      obtain ⟨rfl, h⟩ := h
      obtain ⟨rfl, rfl⟩ := ih (fun m => ha (List.mem_cons_of_mem _ m)) (fun m => hb (List.mem_cons_of_mem _ m)) h
      exact ⟨rfl, rfl⟩

theorem digit_mem {n : Nat} {c : UInt8} (h : c ∈ digits n) : IsDigit c := (digits_numeral n).1.2.1 c h

theorem digits_inj {a b : UInt8} (h : digits a.toNat = digits b.toNat) : a = b := by
  have h1 := (digits_numeral a.toNat).1.2.2
  have h2 := (digits_numeral b.toNat).1.2.2
  rw [h, h2] at h1
  exact (UInt8.toNat_inj.1 h1).symm

theorem loop_mem {l : List UInt8} {c : UInt8} (h : c ∈ sprintLoop l) : c = 32 ∨ IsDigit c := by
  induction l with
  | nil => cases h
  | cons b t ih =>
    simp only [sprintLoop, List.cons_append, List.mem_cons, List.mem_append] at h
    rcases h with h | h | h
    · exact .inl h
    · exact .inr (digit_mem h)
    · exact ih h

theorem no_space (b : UInt8) : (32 : UInt8) ∉ digits b.toNat := fun h => by have := digit_mem h; revert this; decide

/-- What comes before a space, or everything. -/
theorem run_inj {a b : UInt8} {s t : List UInt8} (h : digits a.toNat ++ sprintLoop s = digits b.toNat ++ sprintLoop t) : a = b ∧ sprintLoop s = sprintLoop t := by
  cases s with
  | nil =>
    cases t with
    | nil => simp [sprintLoop] at h; exact ⟨digits_inj h, rfl⟩
    | cons d t =>
      exfalso
      have : (32 : UInt8) ∈ digits a.toNat := by simp only [sprintLoop, List.append_nil] at h; rw [h]; simp
      exact no_space a this
  | cons c s =>
    cases t with
    | nil =>
      exfalso
      have : (32 : UInt8) ∈ digits b.toNat := by simp only [sprintLoop, List.append_nil] at h; rw [← h]; simp
      exact no_space b this
    | cons d t =>
      simp only [sprintLoop, List.cons_append] at h ⊢
      obtain ⟨h1, h2⟩ := cut (no_space a) (no_space b) h
      exact ⟨digits_inj h1, by rw [h2]⟩

theorem loop_inj : ∀ {s t : List UInt8}, sprintLoop s = sprintLoop t → s = t
  | [], [], _ => rfl
  | [], _ :: _, h => by simp [sprintLoop] at h
  | _ :: _, [], h => by simp [sprintLoop] at h
  | a :: s, b :: t, h => by
    simp only [sprintLoop, List.cons_append, List.cons.injEq, true_and] at h
    obtain ⟨rfl, h'⟩ := run_inj h
    rw [loop_inj h']

/-- Between the brackets. -/
def inner : List UInt8 → List UInt8
  | [] => []
  | b :: t => digits b.toNat ++ sprintLoop t

theorem sprint_inner (l : List UInt8) : sprint l = 91 :: (inner l ++ [93]) := by
  cases l with
  | nil => rfl
  | cons b t => simp only [sprint, inner]; rfl

theorem inner_mem {l : List UInt8} {c : UInt8} (h : c ∈ inner l) : c = 32 ∨ IsDigit c := by
  cases l with
  | nil => cases h
  | cons b t =>
    rcases List.mem_append.1 h with h | h
    · exact .inr (digit_mem h)
    · exact loop_mem h

theorem inner_close (l : List UInt8) : (93 : UInt8) ∉ inner l := fun h => by
  rcases inner_mem h with h | h
  · cases h
  · revert h; decide

theorem inner_inj {s t : List UInt8} (h : inner s = inner t) : s = t := by
  have ne : ∀ (b : UInt8) t, inner (b :: t) ≠ [] := fun b t h => (digits_numeral b.toNat).1.1 (List.append_eq_nil_iff.1 h).1
  match s, t with
  | [], [] => rfl
  | [], b :: t => exact absurd h.symm (ne b t)
  | b :: t, [] => exact absurd h (ne b t)
  | a :: s, b :: t =>
    obtain ⟨rfl, h'⟩ := run_inj h
    rw [loop_inj h']

/-- A list of bytes followed by anything can be read back. -/
theorem sprint_inj {s t x y : List UInt8} (h : sprint s ++ x = sprint t ++ y) : s = t ∧ x = y := by
  simp only [sprint_inner, List.cons_append, List.append_assoc, List.cons.injEq, true_and, List.nil_append] at h
  obtain ⟨h1, h2⟩ := cut (inner_close s) (inner_close t) h
  exact ⟨inner_inj h1, h2⟩

theorem sprint_lists (l : List UInt8) : Lists l (sprint l) := by
  induction l with
  | nil => exact .nil
  | cons b t ih =>
    cases t with
    | nil => simp only [sprint, sprintLoop, List.append_nil]; exact .one (digits_numeral _).1
    | cons c l =>
      have e : sprint (b :: c :: l) = lit "[" ++ digits b.toNat ++ lit " " ++ (digits c.toNat ++ sprintLoop l ++ lit "]") := by
        simp only [sprint, sprintLoop, List.append_assoc, List.cons_append]; rfl
      rw [e]
      refine .cons (digits_numeral _).1 ?_
      simpa only [sprint, List.append_assoc] using ih

/-! ## The whole text -/

theorem text_record {s : Slice} {prm : UInt8} {slt hsh : List UInt8} (h : IsRecord s.bytes prm slt hsh) :
    text s = .ret (lit "PasswordHash {Param: " ++ paramString prm ++ lit ", Salt: " ++ sprint slt ++ lit ", Hash: " ++ sprint hsh ++ lit "}") := by
  obtain ⟨h1, h2, h3, h4⟩ := parse h
  unfold text
  rw [h1, h2, h3, h4]
  simp only [bind, Outcome.bind_ret, Bool.true_eq_false, if_false]
  have e1 : lit "PasswordHash {Param: " = lit "PasswordHash {" ++ lit "Param: " := by decide +kernel
  have e2 : lit ", Salt: " = lit ", " ++ lit "Salt: " := by decide +kernel
  have e3 : lit ", Hash: " = lit ", " ++ lit "Hash: " := by decide +kernel
  rw [e1, e2, e3]
  simp only [List.append_assoc]

theorem text_not {s : Slice} (h : ¬ ∃ prm slt hsh, IsRecord s.bytes prm slt hsh) : text s = .ret (lit "PasswordHash (invalid)") := by
  rcases validate_cases s with ⟨_, h'⟩ | ⟨h', _⟩
  · exact absurd h' h
  · unfold text
    rw [h']
    simp [bind]

theorem params_cases (e : UInt8) : (e = 0 ∨ e = 1 ∨ e = 2 ∨ e = 3) ∨ 4 ≤ e.toNat := by
  by_cases h : 4 ≤ e.toNat
  · exact .inr h
  · have : e.toNat = 0 ∨ e.toNat = 1 ∨ e.toNat = 2 ∨ e.toNat = 3 := by omega
    refine .inl ?_
    rcases this with h | h | h | h
    · exact .inl (UInt8.toNat_inj.1 h)
    · exact .inr (.inl (UInt8.toNat_inj.1 h))
    · exact .inr (.inr (.inl (UInt8.toNat_inj.1 h)))
    · exact .inr (.inr (.inr (UInt8.toNat_inj.1 h)))

theorem paramString_other {e : UInt8} (h : 4 ≤ e.toNat) : paramString e = [] := by
  unfold paramString
  split <;> first | rfl | omega

theorem paramString_comma (e : UInt8) : (44 : UInt8) ∉ paramString e := by
  rcases params_cases e with (rfl | rfl | rfl | rfl) | h
  · decide +kernel
  · decide +kernel
  · decide +kernel
  · decide +kernel
  · rw [paramString_other h]; simp

/-- A name tells the algorithm, no name that it is unknown. -/
theorem paramString_inj {e e' : UInt8} (h : paramString e = paramString e') : e = e' ∨ 4 ≤ e.toNat ∧ 4 ≤ e'.toNat := by
  rcases params_cases e with h1 | h1 <;> rcases params_cases e' with h2 | h2
  · rcases h1 with rfl | rfl | rfl | rfl <;> rcases h2 with rfl | rfl | rfl | rfl <;> first | exact .inl rfl | (revert h; decide +kernel)
  · rw [paramString_other h2] at h
    exfalso
    rcases h1 with rfl | rfl | rfl | rfl <;> (revert h; decide +kernel)
  · rw [paramString_other h1] at h
    exfalso
    rcases h2 with rfl | rfl | rfl | rfl <;> (revert h; decide +kernel)
  · exact .inr ⟨h1, h2⟩

/-- The texts of two records agree only when algorithm (if known), salt and hash do. -/
theorem text_inj {p p' : UInt8} {s s' h h' : List UInt8}
    (e : lit "PasswordHash {Param: " ++ paramString p ++ lit ", Salt: " ++ sprint s ++ lit ", Hash: " ++ sprint h ++ lit "}" =
      lit "PasswordHash {Param: " ++ paramString p' ++ lit ", Salt: " ++ sprint s' ++ lit ", Hash: " ++ sprint h' ++ lit "}") :
    (p = p' ∨ 4 ≤ p.toNat ∧ 4 ≤ p'.toNat) ∧ s = s' ∧ h = h' := by
  have e1 : lit ", Salt: " = 44 :: lit " Salt: " := by decide +kernel
  simp only [List.append_assoc, e1, List.append_cancel_left_eq, List.cons_append] at e
  obtain ⟨a1, a2⟩ := cut (paramString_comma p) (paramString_comma p') e
  simp only [List.append_cancel_left_eq] at a2
  obtain ⟨rfl, a3⟩ := sprint_inj a2
  simp only [List.append_cancel_left_eq] at a3
  obtain ⟨rfl, -⟩ := sprint_inj a3
  exact ⟨paramString_inj a1, rfl, rfl⟩

/-- The text of a record is not that of something else. -/
theorem text_valid (x : List UInt8) : lit "PasswordHash {Param: " ++ x ≠ lit "PasswordHash (invalid)" := by
  intro h
  have : (lit "PasswordHash {Param: " ++ x)[13]? = (lit "PasswordHash (invalid)")[13]? := by rw [h]
  rw [List.getElem?_append_left (by decide +kernel)] at this
  revert this
  decide +kernel

end Verif.PassText
