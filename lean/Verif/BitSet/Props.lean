import Verif.BitSet.Model
/-!
# Properties C32 and C33: bit sets

A word is described by which bits below the width it has: `d.getLsbD k`.
-/
namespace Verif.BitSet
open Verif.Go

/-- The indices in front of the first negative one. -/
def before (is : List Int) : List Int := is.takeWhile fun i => decide (0 ≤ i)

theorem bit_ret {w : Nat} {i : Int} (h : 0 ≤ i) : bit w i = .ret (1#w <<< i.toNat) := if_neg (by omega)

theorem bit_panic {w : Nat} {i : Int} (h : i < 0) : bit w i = .panic := if_pos h

theorem bit_get {w : Nat} {i : Int} (h : 0 ≤ i) (k : Nat) (hk : k < w) :
    (1#w <<< i.toNat).getLsbD k = decide ((k : Int) = i) := by
  rw [BitVec.getLsbD_shiftLeft, BitVec.getLsbD_one]
  by_cases e : (k : Int) = i
  · simp [e, hk]; omega
  · simp [e, hk]; omega

theorem before_cons {i : Int} {is : List Int} (h : 0 ≤ i) : before (i :: is) = i :: before is := by
  simp [before, h]

theorem before_neg {i : Int} {is : List Int} (h : i < 0) : before (i :: is) = [] := by
  simp [before, h]

/-- **C32, `Set`**: the bits named are set, all others kept; panics iff some index is negative, after
having set the bits in front of it. Indices at or above the width name no bit. -/
theorem C32_set {w : Nat} (d : BitVec w) (is : List Int) :
    ((set d is).2 = .ret () ↔ ∀ i ∈ is, 0 ≤ i) ∧ ((set d is).2 = .panic ↔ ∃ i ∈ is, i < 0) ∧
    ∀ k, k < w → ((set d is).1.getLsbD k = true ↔ d.getLsbD k = true ∨ (k : Int) ∈ before is) := by
  induction is generalizing d with
  | nil => simp [set, before]
  | cons i is ih =>
    by_cases h : 0 ≤ i
    · obtain ⟨h1, h2, h3⟩ := ih (d ||| 1#w <<< i.toNat)
      simp only [set, bit_ret h, before_cons h]
      refine ⟨by rw [h1]; simp [h], by rw [h2]; simp; omega, fun k hk => ?_⟩
      rw [h3 k hk, BitVec.getLsbD_or, bit_get h k hk]
      simp [or_assoc]
    · have h' : i < 0 := by omega
      simp only [set, bit_panic h', before_neg h']
      exact ⟨by simp; exact fun hx => absurd hx h, by simp [h'], fun k hk => by simp⟩

/-- **C32, `Clear`**: the bits named are cleared, all others kept. -/
theorem C32_clear {w : Nat} (d : BitVec w) (is : List Int) :
    ((clear d is).2 = .ret () ↔ ∀ i ∈ is, 0 ≤ i) ∧ ((clear d is).2 = .panic ↔ ∃ i ∈ is, i < 0) ∧
    ∀ k, k < w → ((clear d is).1.getLsbD k = true ↔ d.getLsbD k = true ∧ (k : Int) ∉ before is) := by
  induction is generalizing d with
  | nil => simp [clear, before]
  | cons i is ih =>
    by_cases h : 0 ≤ i
    · obtain ⟨h1, h2, h3⟩ := ih (d &&& ~~~(1#w <<< i.toNat))
      simp only [clear, bit_ret h, before_cons h]
      refine ⟨by rw [h1]; simp [h], by rw [h2]; simp; omega, fun k hk => ?_⟩
      rw [h3 k hk, BitVec.getLsbD_and, BitVec.getLsbD_not, bit_get h k hk]
      simp [hk, and_assoc]
    · have h' : i < 0 := by omega
      simp only [clear, bit_panic h', before_neg h']
      exact ⟨by simp; exact fun hx => absurd hx h, by simp [h'], fun k hk => by simp⟩

/-- **C32, `Toggle`**: each bit flips as often as it is named. -/
theorem C32_toggle {w : Nat} (d : BitVec w) (is : List Int) :
    ((toggle d is).2 = .ret () ↔ ∀ i ∈ is, 0 ≤ i) ∧ ((toggle d is).2 = .panic ↔ ∃ i ∈ is, i < 0) ∧
    ∀ k, k < w → (toggle d is).1.getLsbD k = (d.getLsbD k ^^ decide ((before is).count (k : Int) % 2 = 1)) := by
  induction is generalizing d with
  | nil => simp [toggle, before]
  | cons i is ih =>
    by_cases h : 0 ≤ i
    · obtain ⟨h1, h2, h3⟩ := ih (d ^^^ 1#w <<< i.toNat)
      simp only [toggle, bit_ret h, before_cons h]
      refine ⟨by rw [h1]; simp [h], by rw [h2]; simp; omega, fun k hk => ?_⟩
      rw [h3 k hk, BitVec.getLsbD_xor, bit_get h k hk, Bool.xor_assoc]
      congr 1
      by_cases e : (k : Int) = i
      · subst e
        rw [List.count_cons_self]
        rcases Nat.mod_two_eq_zero_or_one ((before is).count (k : Int)) with hc | hc
        · have : ((before is).count (k : Int) + 1) % 2 = 1 := by omega
          simp [hc, this]
        · have : ((before is).count (k : Int) + 1) % 2 = 0 := by omega
          simp [hc, this]
      · rw [List.count_cons_of_ne (Ne.symm e)]
        simp [e]
    · have h' : i < 0 := by omega
      simp only [toggle, bit_panic h', before_neg h']
      exact ⟨by simp; exact fun hx => absurd hx h, by simp [h'], fun k hk => by simp⟩

/-- `d` has the bit an index names. -/
def Hit {w : Nat} (d : BitVec w) (i : Int) : Prop := ∃ k : Nat, k < w ∧ (k : Int) = i ∧ d.getLsbD k = true

theorem testLoop_true {w : Nat} (d : BitVec w) (is : List Int) : testLoop d true is = .ret true := by
  induction is with
  | nil => rfl
  | cons i is ih => exact ih

theorem hit_iff {w : Nat} (d : BitVec w) {i : Int} (h : 0 ≤ i) : (d &&& 1#w <<< i.toNat) ≠ 0#w ↔ Hit d i := by
  constructor
  · intro hne
    by_contra hc
    apply hne
    apply BitVec.eq_of_getLsbD_eq
    intro k hk
    rw [BitVec.getLsbD_and, bit_get h k hk, BitVec.getLsbD_zero]
    by_cases e : (k : Int) = i
    · have : d.getLsbD k = false := by
        by_contra hd
        exact hc ⟨k, hk, e, by simpa using hd⟩
      simp [this]
    · simp [e]
  · rintro ⟨k, hk, e, hd⟩ h0
    have := congrArg (fun v => v.getLsbD k) h0
    simp only [BitVec.getLsbD_and, bit_get h k hk, BitVec.getLsbD_zero, hd, e] at this
    simp at this

/-- **C32, `Test`**: true exactly when one of the indices in front of the first negative one names a
bit that is set; a negative index panics unless such an index comes first; otherwise false. -/
theorem C32_test {w : Nat} (d : BitVec w) (is : List Int) :
    (test d is = .ret true ↔ ∃ i ∈ before is, Hit d i) ∧
    (test d is = .ret false ↔ (∀ i ∈ is, 0 ≤ i) ∧ ∀ i ∈ is, ¬ Hit d i) ∧
    (test d is = .panic ↔ (∃ i ∈ is, i < 0) ∧ ∀ i ∈ before is, ¬ Hit d i) := by
  unfold test
  induction is with
  | nil => simp [testLoop, before]
  | cons i is ih =>
    by_cases h : 0 ≤ i
    · simp only [testLoop, bit_ret h, before_cons h]
      by_cases hh : Hit d i
      · have : (d &&& 1#w <<< i.toNat != 0#w) = true := by simpa using (hit_iff d h).2 hh
        rw [this, testLoop_true]
        refine ⟨by simp [hh], ?_, ?_⟩
        · simp [hh]
        · simp [hh]
      · have : (d &&& 1#w <<< i.toNat != 0#w) = false := by
          have := mt (hit_iff d h).1 hh
          simpa using this
        rw [this]
        obtain ⟨h1, h2, h3⟩ := ih
        have hn : ¬ i < 0 := by omega
        refine ⟨by rw [h1]; simp [hh], by rw [h2]; simp [h, hh], by rw [h3]; simp [hn, hh]⟩
    · have h' : i < 0 := by omega
      simp only [testLoop, bit_panic h', before_neg h']
      refine ⟨by simp, by simp; exact fun hx => absurd hx h, by simp [h']⟩

example : set 0b0001#8 [3, 9, 3] = (0b1001#8, .ret ()) ∧ clear 0b1001#8 [0, 0] = (0b1000#8, .ret ()) ∧
    toggle 0b1001#8 [1, 0, 1] = (0b1000#8, .ret ()) ∧ test 0b1000#8 [0, 3, -1] = .ret true ∧
    set 0b0000#8 [2, -1, 3] = (0b0100#8, .panic) := by decide

/-- **C33.** `IsEmpty`/`IsFull` hold exactly when no/every bit is set, `ClearAll`/`SetAll` make them
so, `ToggleAll` flips every bit and undoes itself. -/
theorem C33_whole_set {w : Nat} (d : BitVec w) :
    (isEmpty d = true ↔ ∀ k, k < w → d.getLsbD k = false) ∧
    (isFull d = true ↔ ∀ k, k < w → d.getLsbD k = true) ∧
    isEmpty (clearAll d) = true ∧ isFull (setAll d) = true ∧
    (∀ k, k < w → (toggleAll d).getLsbD k = !d.getLsbD k) ∧ toggleAll (toggleAll d) = d := by
  refine ⟨?_, ?_, by simp [isEmpty, clearAll], by simp [isFull, setAll], fun k hk => ?_, by simp [toggleAll]⟩
  · simp only [isEmpty, beq_iff_eq]
    constructor
    · rintro rfl k _; simp
    · intro h; apply BitVec.eq_of_getLsbD_eq; intro k hk; simp [h k hk]
  · simp only [isFull, beq_iff_eq]
    constructor
    · rintro rfl k hk; simp [hk]
    · intro h; apply BitVec.eq_of_getLsbD_eq; intro k hk; simp [h k hk, hk]
  · simp [toggleAll, hk]

example : isFull (toggleAll 0#16) = true ∧ isEmpty 1#16 = false := by decide

end Verif.BitSet
