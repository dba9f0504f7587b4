import Verif.ConvNum.Spec
/-!
# Lemmas about numerals
-/
namespace Verif.ConvNum

/-! ## Conversions -/

theorem pow_split {b : Nat} (hb : 1 ≤ b) : (2 : Int) ^ b = 2 * 2 ^ (b - 1) := by
  obtain ⟨k, rfl⟩ : ∃ k, b = k + 1 := ⟨b - 1, by omega⟩
  rw [pow_succ, Nat.add_sub_cancel]; ring

theorem conv_spec {t : IntTy} (ht : 1 ≤ t.bits) (i : Int) : InTy t (conv t i) ∧ (2 : Int) ^ t.bits ∣ conv t i - i := by
  have hp := pow_split ht
  have hpos : (0 : Int) < 2 ^ (t.bits - 1) := by positivity
  have h1 := Int.emod_nonneg i (b := 2 ^ t.bits) (by omega)
  have h2 := Int.emod_lt_of_pos i (b := 2 ^ t.bits) (by omega)
  have hd : (2 : Int) ^ t.bits ∣ i % 2 ^ t.bits - i := by
    refine ⟨-(i / 2 ^ t.bits), ?_⟩
    have := Int.emod_add_mul_ediv i (2 ^ t.bits)
    rw [mul_neg]; linarith
  unfold conv InTy
  cases hs : t.signed
  · simp only [Bool.false_eq_true, false_and, if_false]
    exact ⟨⟨h1, h2⟩, hd⟩
  · simp only [true_and, if_true]
    split
    · refine ⟨⟨by omega, by omega⟩, ?_⟩
      have := Int.dvd_sub hd (Int.dvd_refl (2 ^ t.bits))
      rwa [show i % 2 ^ t.bits - 2 ^ t.bits - i = i % 2 ^ t.bits - i - 2 ^ t.bits by ring]
    · exact ⟨⟨by omega, by omega⟩, hd⟩

theorem inTy_unique {t : IntTy} (ht : 1 ≤ t.bits) {i j : Int} (hi : InTy t i) (hj : InTy t j) (h : (2 : Int) ^ t.bits ∣ i - j) : i = j := by
  have hp := pow_split ht
  obtain ⟨k, hk⟩ := h
  have hpos : (0 : Int) < 2 ^ t.bits := by positivity
  have : -2 ^ t.bits < i - j ∧ i - j < 2 ^ t.bits := by
    unfold InTy at hi hj
    cases hs : t.signed <;> simp [hs] at hi hj <;> constructor <;> omega
  have hk0 : k = 0 := by
    rw [hk] at this
    have h1 : -1 < k := by
      by_contra hc
      have : (2 : Int) ^ t.bits * k ≤ 2 ^ t.bits * (-1) := Int.mul_le_mul_of_nonneg_left (by omega) (by omega)
      omega
    have h2 : k < 1 := by
      by_contra hc
      have : (2 : Int) ^ t.bits * 1 ≤ 2 ^ t.bits * k := Int.mul_le_mul_of_nonneg_left (by omega) (by omega)
      omega
    omega
  subst hk0
  omega

theorem conv_fits {t : IntTy} (ht : 1 ≤ t.bits) {i : Int} (h : InTy t i) : conv t i = i :=
  inTy_unique ht (conv_spec ht i).1 h (conv_spec ht i).2

/-! ## Parsing -/

theorem digit_iff (c : UInt8) (d : Nat) : (digit c = some d ∧ d < 10) ↔ (IsDigit c ∧ d = c.toNat - 48) := by
  unfold digit IsDigit
  split
  · rename_i h
    simp only [Option.some.injEq]
    omega
  · rename_i h
    split
    · simp only [Option.some.injEq]
      constructor
      · omega
      · rintro ⟨h', _⟩; exact absurd h' h
    · simp [h]

theorem value_append (s : List UInt8) (c : UInt8) : value (s ++ [c]) = value s * 10 + (c.toNat - 48) := by
  simp [value]

theorem foldl_value (s : List UInt8) (n : Nat) : n ≤ s.foldl (fun v c => v * 10 + (c.toNat - 48)) n := by
  induction s generalizing n with
  | nil => exact Nat.le_refl _
  | cons c s ih => exact Nat.le_trans (by dsimp only; omega) (ih _)

/-- The loop, for digits: the value, or an overflow. -/
theorem parseLoop_digits (s : List UInt8) (n w : Nat) (hn : n ≤ maxU) (hs : ∀ c ∈ s, IsDigit c) (rest : List UInt8)
    (hw : s.foldl (fun v c => v * 10 + (c.toNat - 48)) n = w) :
    parseLoop (s ++ rest) n = if w ≤ maxU then parseLoop rest w else (maxU, some .range) := by
  induction s generalizing n with
  | nil => cases hw; simp [hn]
  | cons c s ih =>
    have hc := hs c (by simp)
    obtain ⟨h1, h2⟩ := (digit_iff c (c.toNat - 48)).2 ⟨hc, rfl⟩
    rw [List.cons_append, parseLoop, h1]
    simp only [List.foldl_cons] at hw ⊢
    rw [if_neg (by omega)]
    have hmono := foldl_value s (n * 10 + (c.toNat - 48))
    rw [hw] at hmono
    by_cases h3 : n ≥ cutoff
    · rw [if_pos h3, if_neg]
      unfold cutoff maxU at *; omega
    · rw [if_neg h3]
      have e1 : n * 10 % 2 ^ 64 = n * 10 := Nat.mod_eq_of_lt (by unfold cutoff maxU at *; omega)
      rw [e1]
      by_cases h4 : n * 10 + (c.toNat - 48) ≤ maxU
      · have e2 : (n * 10 + (c.toNat - 48)) % 2 ^ 64 = n * 10 + (c.toNat - 48) := Nat.mod_eq_of_lt (by unfold maxU at *; omega)
        rw [e2, if_neg (by omega), ih _ h4 (fun c hc => hs c (by simp [hc])) hw]
      · rw [if_pos, if_neg (by omega)]
        left
        unfold cutoff maxU at *; omega

theorem parseLoop_bad (c : UInt8) (s : List UInt8) (n : Nat) (hc : ¬ IsDigit c) : parseLoop (c :: s) n = (0, some .syntax) := by
  unfold parseLoop
  cases hd : digit c with
  | none => rfl
  | some d =>
    have : ¬ d < 10 := fun h => hc ((digit_iff c d).1 ⟨hd, h⟩).1
    simp only
    rw [if_pos (by omega)]

/-- Every string: the digits at its start, and the rest. -/
theorem split_digits (s : List UInt8) : ∃ p r, s = p ++ r ∧ (∀ c ∈ p, IsDigit c) ∧ ∀ c, r.head? = some c → ¬ IsDigit c := by
  induction s with
  | nil => exact ⟨[], [], rfl, by simp, by simp⟩
  | cons c s ih =>
    by_cases hc : IsDigit c
    · obtain ⟨p, r, rfl, h1, h2⟩ := ih
      exact ⟨c :: p, r, rfl, by simpa [hc] using h1, h2⟩
    · exact ⟨[], c :: s, rfl, by simp, by simp [hc]⟩

/-- What `ParseUint` does with a string of which `p` are the digits at the start. -/
theorem parseUint_eq (p r : List UInt8) (hp : ∀ c ∈ p, IsDigit c) (hr : ∀ c, r.head? = some c → ¬ IsDigit c) :
    parseUint (p ++ r) = if value p > maxU then (maxU, some .range) else if r = [] ∧ p ≠ [] then (value p, none) else (0, some .syntax) := by
  unfold parseUint
  have hl := parseLoop_digits p 0 (value p) (by decide) hp r rfl
  by_cases he : p ++ r = []
  · obtain ⟨rfl, rfl⟩ := List.append_eq_nil_iff.1 he
    simp [value]
  · rw [if_neg he, hl]
    by_cases hv : value p ≤ maxU
    · rw [if_pos hv, if_neg (by omega)]
      cases r with
      | nil =>
        simp at he
        simp [parseLoop, he]
      | cons c r => simp [parseLoop_bad c r _ (hr c rfl)]
    · rw [if_neg hv, if_pos (by omega)]

theorem numeral_parse {s : List UInt8} {v : Nat} (h : Numeral s v) :
    parseUint s = if v > maxU then (maxU, some .range) else (v, none) := by
  obtain ⟨h1, h2, rfl⟩ := h
  have := parseUint_eq s [] h2 (by simp)
  rw [List.append_nil] at this
  rw [this]
  simp [h1]

theorem conv64 {n : Nat} (h : n < 2 ^ 63) : conv int64 n = n := by
  exact conv_fits (by decide) (by unfold InTy int64; simp only [if_true]; omega)

theorem conv64' (n : Int) (h1 : -2 ^ 63 ≤ n) (h : n < 2 ^ 63) : conv int64 n = n := by
  exact conv_fits (by decide) (by unfold InTy int64; simp only [if_true]; omega)

theorem convMin : conv int64 (((2 : Nat) ^ 63 : Nat) : Int) = -2 ^ 63 := by decide

/-- `ParseInt` after the sign, on what `ParseUint` accepts. -/
theorem parseSigned_num {s : List UInt8} {v : Nat} (h : Numeral s v) (neg : Bool) :
    (parseSigned neg s).1 = max (-2 ^ 63) (min (2 ^ 63 - 1) (if neg then -(v : Int) else v)) := by
  unfold parseSigned
  rw [numeral_parse h]
  by_cases hv : v > maxU
  · rw [if_pos hv]
    unfold maxU at *
    cases neg <;> simp <;> omega
  · rw [if_neg hv]
    cases neg
    · simp only [ge_iff_le, true_and, Bool.false_eq_true, false_and, if_false]
      by_cases h1 : 2 ^ 63 ≤ v
      · rw [if_pos h1]; simp only; omega
      · rw [if_neg h1]; simp only
        rw [conv64 (by omega), conv64 (by omega)]; omega
    · simp only [Bool.true_eq_false, false_and, if_false, true_and, if_true]
      by_cases h1 : v > 2 ^ 63
      · rw [if_pos h1]; simp only; omega
      · rw [if_neg h1]; simp only
        rcases Nat.lt_or_ge v (2 ^ 63) with h2 | h2
        · rw [conv64 h2, conv64' _ (by omega) (by omega)]; omega
        · have : v = 2 ^ 63 := by omega
          subst this
          decide

theorem isDigit_sign {s : List UInt8} {v : Nat} (h : Numeral s v) : s.head? ≠ some 43 ∧ s.head? ≠ some 45 := by
  obtain ⟨h1, h2, _⟩ := h
  cases s with
  | nil => exact absurd rfl h1
  | cons c s =>
    have := h2 c (by simp)
    constructor <;> (intro e; simp at e; subst e; revert this; decide)

theorem parseInt_num {s : List UInt8} {v : Int} (h : SNumeral s v) :
    (parseInt s).1 = max (-2 ^ 63) (min (2 ^ 63 - 1) v) := by
  rcases h with ⟨n, h, rfl⟩ | ⟨t, n, rfl, h, rfl⟩ | ⟨t, n, rfl, h, rfl⟩
  · have hs := isDigit_sign h
    unfold parseInt
    cases s with
    | nil => exact absurd rfl h.1
    | cons c t =>
      simp only [List.head?_cons, ne_eq, Option.some.injEq] at hs
      simp only
      rw [if_neg hs.1, if_neg hs.2, parseSigned_num h]
      simp
  · unfold parseInt
    simp only [if_true]
    rw [parseSigned_num h]
    simp
  · unfold parseInt
    simp only [show ¬ ((45 : UInt8) = 43) by decide, if_false, if_true]
    rw [parseSigned_num h]
    simp

/-! ## Formatting -/

theorem digit_char {n : Nat} (h : n < 10) : (48 + UInt8.ofNat n).toNat = 48 + n := by
  have : n < 256 := by omega
  simp [UInt8.toNat_add, UInt8.toNat_ofNat']
  omega

theorem digits_numeral (n : Nat) : Numeral (digits n) n ∧ ((digits n).head? = some 48 → n = 0) := by
  induction n using Nat.strongRecOn with
  | _ n ih =>
    rw [digits]
    by_cases h : n < 10
    · rw [if_pos h]
      have := digit_char h
      refine ⟨⟨by simp, ?_, ?_⟩, ?_⟩
      · simp [IsDigit, this]; omega
      · simp only [value, List.foldl_cons, List.foldl_nil, this]; omega
      · simp only [List.head?_cons, Option.some.injEq]
        intro e
        rw [e] at this
        have h48 : (48 : UInt8).toNat = 48 := rfl
        omega
    · rw [if_neg h]
      obtain ⟨⟨h1, h2, h3⟩, h4⟩ := ih (n / 10) (by omega)
      have hc := digit_char (n := n % 10) (by omega)
      refine ⟨⟨by simp, ?_, ?_⟩, ?_⟩
      · intro c hc'
        rcases List.mem_append.1 hc' with g | g
        · exact h2 c g
        · rw [List.mem_singleton.1 g, IsDigit, hc]; omega
      · rw [value_append, h3, hc]; omega
      · intro e
        have : (digits (n / 10)).head? = some 48 := by
          cases hd : digits (n / 10) with
          | nil => exact absurd hd h1
          | cons c t => rw [hd] at e; simpa using e
        have := h4 this
        omega

theorem digits_canonical (n : Nat) : (digits n).head? = some 48 → digits n = [48] := by
  intro h
  have := (digits_numeral n).2 h
  subst this
  rw [digits]; rfl

/-! ## Uniqueness of canonical numerals -/

theorem value_inj : ∀ (s t : List UInt8), (∀ c ∈ s, IsDigit c) → (∀ c ∈ t, IsDigit c) → s.head? ≠ some 48 → t.head? ≠ some 48 →
    value s = value t → s = t := by
  intro s
  have pos : ∀ s : List UInt8, (∀ c ∈ s, IsDigit c) → s.head? ≠ some 48 → s ≠ [] → 0 < value s := by
    intro s h1 h2 h3
    cases s with
    | nil => exact absurd rfl h3
    | cons c s =>
      have hc := h1 c (by simp)
      have := foldl_value s (c.toNat - 48)
      have : c.toNat ≠ 48 := fun e => h2 (by simp; exact UInt8.toNat_inj.1 e)
      unfold IsDigit at hc
      simp only [value, List.foldl_cons]
      simp only [Nat.zero_mul, Nat.zero_add]
      omega
  induction s using List.reverseRecOn with
  | nil =>
    intro t _ h2 _ h4 hv
    by_contra hne
    have := pos t h2 h4 (fun e => hne e.symm)
    simp [value] at hv
    simp [value] at this
    omega
  | append_singleton s c ih =>
    intro t h1 h2 h3 h4 hv
    rcases List.eq_nil_or_concat t with rfl | ⟨t, d, rfl⟩
    · have := pos _ h1 h3 (by simp)
      rw [hv] at this; simp [value] at this
    · rw [List.concat_eq_append] at *
      rw [value_append, value_append] at hv
      have hc := h1 c (by simp)
      have hd := h2 d (by simp)
      unfold IsDigit at hc hd
      have e1 : value s = value t := by omega
      have e2 : c = d := UInt8.toNat_inj.1 (by omega)
      have hh : ∀ (l : List UInt8) (x : UInt8), (l ++ [x]).head? ≠ some 48 → l.head? ≠ some 48 := by
        intro l x h
        cases l with
        | nil => simp
        | cons y l => simpa using h
      rw [e2, ih t (fun c hc => h1 c (by simp [hc])) (fun c hc => h2 c (by simp [hc])) (hh _ _ h3) (hh _ _ h4) e1]

/-- Two canonical numerals of a number are equal. -/
theorem canonical_unique {s t : List UInt8} {x : Int} (hs : Canonical s x) (ht : Canonical t x) : s = t := by
  have nz : ∀ {s : List UInt8} {n : Nat}, Numeral s n → (s.head? = some 48 → s = [48]) → n ≠ 0 → s.head? ≠ some 48 := by
    intro s n h1 h2 h3 e
    have := h2 e
    subst this
    exact h3 (by rw [← h1.2.2]; rfl)
  have zero : ∀ {s : List UInt8}, Numeral s 0 → (s.head? = some 48 → s = [48]) → s = [48] := by
    intro s h1 h2
    by_contra hne
    have h3 : s.head? ≠ some 48 := fun e => hne (h2 e)
    have := value_inj s [] h1.2.1 (by simp) h3 (by simp) h1.2.2
    exact h1.1 this
  rcases hs with ⟨n, rfl, h1, h2⟩ | ⟨s', n, rfl, rfl, h0, h1, h2⟩ <;> rcases ht with ⟨m, e, g1, g2⟩ | ⟨t', m, rfl, e, g0, g1, g2⟩
  · have e : n = m := by omega
    subst e
    by_cases hn : n = 0
    · subst hn; rw [zero h1 h2, zero g1 g2]
    · exact value_inj _ _ h1.2.1 g1.2.1 (nz h1 h2 hn) (nz g1 g2 hn) (h1.2.2.trans g1.2.2.symm)
  · omega
  · omega
  · have e : n = m := by omega
    subst e
    rw [value_inj _ _ h1.2.1 g1.2.1 h2 g2 (h1.2.2.trans g1.2.2.symm)]

theorem go_bits {t : IntTy} (h : t.IsGo) : 1 ≤ t.bits ∧ t.bits ≤ 64 := by
  unfold IntTy.IsGo at h; omega

theorem signed_int64 {t : IntTy} (h : t.IsGo) (hs : t.signed = true) {x : Int} (hx : InTy t x) : -2 ^ 63 ≤ x ∧ x < 2 ^ 63 := by
  unfold InTy at hx
  rw [hs] at hx
  simp only [if_true] at hx
  rcases h with h | h | h | h <;> rw [h] at hx <;> omega

theorem unsigned_uint64 {t : IntTy} (h : t.IsGo) (hs : t.signed = false) {x : Int} (hx : InTy t x) : 0 ≤ x ∧ x < 2 ^ 64 := by
  unfold InTy at hx
  rw [hs] at hx
  simp only [Bool.false_eq_true, if_false] at hx
  rcases h with h | h | h | h <;> rw [h] at hx <;> omega

theorem formatInt_canonical {x : Int} (h1 : -2 ^ 63 ≤ x) : Canonical (formatInt x) x := by
  unfold formatInt
  split
  · rename_i h
    have e : conv uint64 (-x) = -x := conv_fits (by decide) (by unfold InTy uint64; simp only [Bool.false_eq_true, if_false]; omega)
    rw [e]
    refine .inr ⟨_, (-x).toNat, rfl, by omega, by omega, (digits_numeral _).1, fun e' => ?_⟩
    have := (digits_numeral _).2 e'
    omega
  · exact .inl ⟨x.toNat, by omega, (digits_numeral _).1, digits_canonical _⟩

theorem canonical_snumeral {s : List UInt8} {x : Int} (h : Canonical s x) : SNumeral s x := by
  rcases h with ⟨n, rfl, h1, _⟩ | ⟨t, n, rfl, rfl, _, h1, _⟩
  · exact .inl ⟨n, h1, rfl⟩
  · exact .inr (.inr ⟨t, n, rfl, h1, rfl⟩)

end Verif.ConvNum
