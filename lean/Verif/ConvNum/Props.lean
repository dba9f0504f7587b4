import Verif.ConvNum.Lemmas
/-!
# Conversions between integers, booleans and strings: properties C64, C65, C66
-/
namespace Verif.ConvNum

/-! ## C64 -/

/-- C64, signed types. -/
theorem C64_signed_round_trip (t : IntTy) (ht : t.IsGo) (hs : t.signed = true) (x : Int) (hx : InTy t x) :
    Canonical (intToString t x) x ∧ (∀ s, Canonical s x → s = intToString t x) ∧ stringToInteger t (intToString t x) = x := by
  have hb := signed_int64 ht hs hx
  have hc : Canonical (intToString t x) x := by
    unfold intToString; rw [conv64' x hb.1 hb.2]; exact formatInt_canonical hb.1
  refine ⟨hc, fun s h => canonical_unique h hc, ?_⟩
  unfold stringToInteger
  rw [parseInt_num (canonical_snumeral hc), show max (-2 ^ 63) (min (2 ^ 63 - 1) x) = x by omega, conv_fits (go_bits ht).1 hx]

/-- C64, unsigned types. -/
theorem C64_unsigned_round_trip (t : IntTy) (ht : t.IsGo) (hs : t.signed = false) (x : Int) (hx : InTy t x) :
    Canonical (uintToString t x) x ∧ (∀ s, Canonical s x → s = uintToString t x) ∧ stringToUinteger t (uintToString t x) = x := by
  have hb := unsigned_uint64 ht hs hx
  have e : conv uint64 x = x := conv_fits (by decide) (by unfold InTy uint64; simp only [Bool.false_eq_true, if_false]; omega)
  have hn : Numeral (uintToString t x) x.toNat := by
    unfold uintToString formatUint; rw [e]; exact (digits_numeral _).1
  have hc : Canonical (uintToString t x) x := by
    refine .inl ⟨x.toNat, by omega, hn, ?_⟩
    unfold uintToString formatUint; rw [e]; exact digits_canonical _
  refine ⟨hc, fun s h => canonical_unique h hc, ?_⟩
  unfold stringToUinteger
  rw [numeral_parse hn, if_neg (by unfold maxU; omega)]
  rw [Int.toNat_of_nonneg hb.1, conv_fits (go_bits ht).1 hx]

example : IntTy.IsGo ⟨true, 64⟩ ∧ InTy ⟨true, 64⟩ (-2 ^ 63) := by
  refine ⟨.inr (.inr (.inr rfl)), ?_⟩
  unfold InTy; simp only [if_true]; omega

/-! ## C65 -/

/-- C65 in full. -/
def C65_full : Prop := ∀ (t : IntTy) (s : List UInt8), t.IsGo →
  (∀ v : Int, SNumeral s v → stringToInteger t s = conv t (max (-2 ^ 63) (min (2 ^ 63 - 1) v))) ∧
  ((¬ ∃ v, SNumeral s v) → stringToInteger t s = conv t 0) ∧
  (∀ v : Nat, Numeral s v → stringToUinteger t s = conv t (min v (2 ^ 64 - 1))) ∧
  ((¬ ∃ v, Numeral s v) → stringToUinteger t s = conv t 0)

/-- C65: numerals of any length, and the strings that are not numerals, except those that start with digits of a
number beyond 64 bits. Missing: these; they give the bound and not 0 (`C65_overflow_first`, `C65_refuted`). -/
theorem C65_total_partial (t : IntTy) (s : List UInt8) :
    (∀ v : Int, SNumeral s v → stringToInteger t s = conv t (max (-2 ^ 63) (min (2 ^ 63 - 1) v))) ∧
    (∀ v : Nat, Numeral s v → stringToUinteger t s = conv t (min v (2 ^ 64 - 1))) ∧
    (∀ p r, s = p ++ r → (∀ c ∈ p, IsDigit c) → (∀ c, r.head? = some c → ¬ IsDigit c) → (r ≠ [] ∨ p = []) →
      value p < 2 ^ 64 → stringToUinteger t s = conv t 0) ∧
    (∀ sg p r, s = sg ++ p ++ r → sg = [] ∨ sg = [43] ∨ sg = [45] → (∀ c ∈ p, IsDigit c) → (∀ c, r.head? = some c → ¬ IsDigit c) →
      (r ≠ [] ∨ p = []) → (sg = [] → p ++ r ≠ [] → (p ++ r).head? ≠ some 43 ∧ (p ++ r).head? ≠ some 45) →
      value p < 2 ^ 64 → stringToInteger t s = conv t 0) := by
  refine ⟨fun v h => by unfold stringToInteger; rw [parseInt_num h], fun v h => ?_, fun p r e hp hr hpr hv => ?_,
    fun sg p r e hsg hp hr hpr hns hv => ?_⟩
  · unfold stringToUinteger
    rw [numeral_parse h]
    split
    · rename_i g; congr 1; unfold maxU at *; simp only; omega
    · rename_i g; congr 1; unfold maxU at *; simp only; omega
  · subst e
    unfold stringToUinteger
    rw [parseUint_eq p r hp hr, if_neg (by unfold maxU; omega), if_neg]
    · rfl
    · rintro ⟨h1, h2⟩; rcases hpr with h | h
      · exact h h1
      · exact h2 h
  · have bad : ∀ neg, parseSigned neg (p ++ r) = (0, some .syntax) := fun neg => by
      unfold parseSigned
      rw [parseUint_eq p r hp hr, if_neg (by unfold maxU; omega), if_neg]
      rintro ⟨h1, h2⟩; rcases hpr with h | h
      · exact h h1
      · exact h2 h
    subst e
    unfold stringToInteger
    rcases hsg with rfl | rfl | rfl
    · rw [List.nil_append]
      cases hq : p ++ r with
      | nil => simp [parseInt]
      | cons c q =>
        have := hns rfl (by rw [hq]; simp)
        rw [hq] at this
        simp only [List.head?_cons, ne_eq, Option.some.injEq] at this
        unfold parseInt
        simp only
        rw [if_neg this.1, if_neg this.2, ← hq, bad]
    · simp [parseInt, bad]
    · simp [parseInt, bad]

/-- A string that starts with the digits of a number beyond 64 bits gives the bound, whatever follows. -/
theorem C65_overflow_first (t : IntTy) (p r : List UInt8) (hp : ∀ c ∈ p, IsDigit c) (hv : 2 ^ 64 ≤ value p) :
    stringToUinteger t (p ++ r) = conv t (2 ^ 64 - 1) ∧ stringToInteger t (p ++ r) = conv t (2 ^ 63 - 1) ∧
    stringToInteger t (43 :: p ++ r) = conv t (2 ^ 63 - 1) ∧ stringToInteger t (45 :: p ++ r) = conv t (-2 ^ 63) := by
  have hl := parseLoop_digits p 0 (value p) (by decide) hp r rfl
  have hv' : ¬ value p ≤ maxU := by unfold maxU; omega
  rw [if_neg hv'] at hl
  have hne : p ≠ [] := by rintro rfl; simp [value] at hv
  have hpu : parseUint (p ++ r) = (maxU, some .range) := by
    unfold parseUint; rw [if_neg (by simp [hne]), hl]
  have h1 : parseSigned false (p ++ r) = (2 ^ 63 - 1, some .range) := by unfold parseSigned; rw [hpu]; rfl
  have h2 : parseSigned true (p ++ r) = (-2 ^ 63, some .range) := by unfold parseSigned; rw [hpu]; rfl
  refine ⟨?_, ?_, ?_, ?_⟩
  · unfold stringToUinteger; rw [hpu]; rfl
  · have := isDigit_sign (s := p) ⟨hne, hp, rfl⟩
    unfold stringToInteger parseInt
    cases p with
    | nil => exact absurd rfl hne
    | cons c p =>
      simp only [List.head?_cons, ne_eq, Option.some.injEq] at this
      simp only [List.cons_append] at h1 ⊢
      rw [if_neg this.1, if_neg this.2, h1]
  · unfold stringToInteger; simp [parseInt, h1]
  · unfold stringToInteger; simp [parseInt, h2]

/-- Every string is one of those covered by the two theorems. -/
theorem C65_cases (s : List UInt8) : ∃ p r, s = p ++ r ∧ (∀ c ∈ p, IsDigit c) ∧ (∀ c, r.head? = some c → ¬ IsDigit c) ∧
    (Numeral s (value p) ∨ ((r ≠ [] ∨ p = []) ∧ value p < 2 ^ 64) ∨ 2 ^ 64 ≤ value p) := by
  obtain ⟨p, r, rfl, h1, h2⟩ := split_digits s
  refine ⟨p, r, rfl, h1, h2, ?_⟩
  by_cases hv : value p < 2 ^ 64
  · by_cases hr : r = []
    · subst hr
      by_cases hp : p = []
      · exact .inr (.inl ⟨.inr hp, hv⟩)
      · exact .inl ⟨by simpa using hp, by simpa using h1, by simp⟩
    · exact .inr (.inl ⟨.inl hr, hv⟩)
  · exact .inr (.inr (by omega))

/-- "99999999999999999999x" is no numeral, and is not converted to 0. -/
theorem C65_refuted : ¬ C65_full := by
  intro hc
  have h := (hc ⟨false, 64⟩ (ascii "99999999999999999999x") (.inr (.inr (.inr rfl)))).2.2.2 (by
    rintro ⟨v, _, h, _⟩
    have := h 120 (by decide)
    revert this; decide)
  revert h; decide

/-- A numeral beyond 64 bits, and an invalid string within. -/
example : Numeral (ascii "123456789012345678901234567890") 123456789012345678901234567890 ∧
    ascii "12x" = [49, 50] ++ [120] ∧ IsDigit 49 ∧ IsDigit 50 ∧ ¬ IsDigit 120 := by
  refine ⟨⟨by decide, ?_, by decide⟩, by decide, by decide, by decide, by decide⟩
  intro c hc
  revert c
  decide

/-! ## C66 -/

/-- C66, between integer types: the value of the target type that is congruent to the source. -/
theorem C66_congruent (t r : IntTy) (hr : r.IsGo) (x : Int) :
    InTy r (integerToInteger t r x) ∧ (2 : Int) ^ r.bits ∣ integerToInteger t r x - x ∧
    (∀ y, InTy r y → (2 : Int) ^ r.bits ∣ y - x → y = integerToInteger t r x) ∧
    (InTy r x → integerToInteger t r x = x) := by
  have h := conv_spec (go_bits hr).1 x
  refine ⟨h.1, h.2, fun y hy hd => inTy_unique (go_bits hr).1 hy h.1 ?_, conv_fits (go_bits hr).1⟩
  have := Int.dvd_sub hd h.2
  rwa [show y - x - (conv r x - x) = y - conv r x by ring] at this

/-- C66: there and back through a type that is at least as wide is the identity. -/
theorem C66_widening_round_trip (t r : IntTy) (ht : t.IsGo) (hr : r.IsGo) (hb : t.bits ≤ r.bits) (x : Int) (hx : InTy t x) :
    integerToInteger r t (integerToInteger t r x) = x := by
  have h1 := conv_spec (go_bits hr).1 x
  have h2 := conv_spec (go_bits ht).1 (conv r x)
  refine inTy_unique (go_bits ht).1 h2.1 hx ?_
  have hd : (2 : Int) ^ t.bits ∣ conv r x - x := Int.dvd_trans (pow_dvd_pow 2 hb) h1.2
  have := Int.dvd_add h2.2 hd
  rwa [show conv t (conv r x) - conv r x + (conv r x - x) = conv t (conv r x) - x by ring] at this

/-- C66, booleans. -/
theorem C66_bool (t : IntTy) (ht : t.IsGo) (b : Bool) (x : Int) :
    intToBool t (boolToInteger t b) = b ∧ boolToInteger t b = (if b then 1 else 0) ∧
    (intToBool t x = true ↔ x ≠ 0) ∧ stringToBool (boolToString b) = b := by
  have h0 : conv t 0 = 0 := by
    unfold conv; simp
  have h1 : conv t 1 = 1 := by
    rcases ht with h | h | h | h <;> (unfold conv; rw [h]; simp)
  unfold intToBool boolToInteger
  rw [h0, h1]
  refine ⟨by cases b <;> rfl, rfl, by simp, by cases b <;> decide⟩

example : InTy ⟨true, 8⟩ (-1) ∧ integerToInteger ⟨true, 8⟩ ⟨false, 32⟩ (-1) = 4294967295 ∧
    integerToInteger ⟨false, 32⟩ ⟨true, 8⟩ 4294967295 = -1 := by
  refine ⟨?_, rfl, rfl⟩
  unfold InTy; simp

theorem intToString_digit (t : IntTy) (n : Nat) (h : n < 10) : intToString t n = [48 + UInt8.ofNat n] := by
  unfold intToString
  rw [conv64' _ (by omega) (by omega)]
  unfold formatInt
  rw [if_neg (by omega), digits, Int.toNat_natCast, if_pos h]

/-- C66, strings read as booleans: six of them are true, every other one is false; so numbers 0 and 1 written out give the
boolean they give directly. -/
theorem C66_string_bool (s : List UInt8) :
    (stringToBool s = true ↔ s ∈ ["1", "t", "T", "true", "TRUE", "True"].map (fun x => x.toList.map (fun c => UInt8.ofNat c.toNat))) ∧
    (∀ (t : IntTy) (b : Bool), t.IsGo → t.signed = true → stringToBool (intToString t (boolToInteger t b)) = b) := by
  constructor
  · simp [stringToBool, ascii, or_assoc]
  · intro t b ht hs
    have h1 := (C66_bool t ht b 0).2.1
    rw [h1]
    cases b
    · have : intToString t 0 = [48] := intToString_digit t 0 (by decide)
      simp only [Bool.false_eq_true, if_false, this]; decide
    · have : intToString t 1 = [49] := intToString_digit t 1 (by decide)
      simp only [if_true, this]; decide

/-- Other numbers do not: 2 is true, the string "2" is false. -/
theorem C66_string_bool_two : intToBool int64 2 = true ∧ stringToBool (intToString int64 2) = false :=
  ⟨by decide, by rw [show (2 : Int) = (2 : Nat) from rfl, intToString_digit int64 2 (by decide)]; decide⟩

end Verif.ConvNum
