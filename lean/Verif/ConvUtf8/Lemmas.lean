import Verif.ConvUtf8.Model
/-!
# Lemmas about UTF-8
-/
namespace Verif.ConvUtf8

open String (utf8EncodeChar)

theorem and_mask (x k : Nat) : x &&& (2 ^ k - 1) = x % 2 ^ k := Nat.and_two_pow_sub_one_eq_mod x k

theorem and3F (x : Nat) : x &&& 0x3F = x % 64 := and_mask x 6
theorem and1F (x : Nat) : x &&& 0x1F = x % 32 := and_mask x 5
theorem and0F (x : Nat) : x &&& 0x0F = x % 16 := and_mask x 4
theorem and07 (x : Nat) : x &&& 0x07 = x % 8 := and_mask x 3

theorem or_add (a b k : Nat) (h : b < 2 ^ k) : a <<< k ||| b = a * 2 ^ k + b := by
  rw [← Nat.shiftLeft_add_eq_or_of_lt h, Nat.shiftLeft_eq]

theorem shr (x k : Nat) : x >>> k = x / 2 ^ k := Nat.shiftRight_eq_div_pow x k

theorem orC0 {x : Nat} (h : x < 32) : 0xC0 ||| x = x + 192 := by
  have := or_add 6 x 5 h
  rw [show (6 <<< 5 : Nat) = 0xC0 by decide] at this
  omega
theorem orE0 {x : Nat} (h : x < 16) : 0xE0 ||| x = x + 224 := by
  have := or_add 14 x 4 h
  rw [show (14 <<< 4 : Nat) = 0xE0 by decide] at this
  omega
theorem orF0 {x : Nat} (h : x < 8) : 0xF0 ||| x = x + 240 := by
  have := or_add 30 x 3 h
  rw [show (30 <<< 3 : Nat) = 0xF0 by decide] at this
  omega
theorem or80 {x : Nat} (h : x < 64) : 0x80 ||| x = x + 128 := by
  have := or_add 2 x 6 h
  rw [show (2 <<< 6 : Nat) = 0x80 by decide] at this
  omega

/-- What the decoder computes from 2, 3, 4 bytes. -/
theorem r2 (a b : Nat) : ((a &&& 0x1F) <<< 6) ||| (b &&& 0x3F) = a % 32 * 64 + b % 64 := by
  rw [and1F, and3F, or_add _ _ 6 (by omega)]; rfl

theorem r3 (a b c : Nat) : (((a &&& 0x0F) <<< 12) ||| ((b &&& 0x3F) <<< 6)) ||| (c &&& 0x3F) = a % 16 * 4096 + b % 64 * 64 + c % 64 := by
  have e : (b % 64) <<< 6 = b % 64 * 64 := Nat.shiftLeft_eq _ _
  rw [and0F, and3F, and3F, e, or_add _ _ 12 (by omega)]
  have := or_add (a % 16 * 64 + b % 64) (c % 64) 6 (by omega)
  rw [Nat.shiftLeft_eq] at this
  rw [show a % 16 * 2 ^ 12 + b % 64 * 64 = (a % 16 * 64 + b % 64) * 2 ^ 6 by ring, this]
  ring

theorem r4 (a b c d : Nat) : ((((a &&& 0x07) <<< 18) ||| ((b &&& 0x3F) <<< 12)) ||| ((c &&& 0x3F) <<< 6)) ||| (d &&& 0x3F) =
    a % 8 * 262144 + b % 64 * 4096 + c % 64 * 64 + d % 64 := by
  have e : (b % 64) <<< 12 = b % 64 * 4096 := Nat.shiftLeft_eq _ _
  have e' : (c % 64) <<< 6 = c % 64 * 64 := Nat.shiftLeft_eq _ _
  rw [and07, and3F, and3F, and3F, e, e', or_add _ _ 18 (by omega)]
  have h1 := or_add (a % 8 * 64 + b % 64) (c % 64 * 64) 12 (by omega)
  rw [Nat.shiftLeft_eq] at h1
  rw [show a % 8 * 2 ^ 18 + b % 64 * 4096 = (a % 8 * 64 + b % 64) * 2 ^ 12 by ring, h1]
  have h2 := or_add (a % 8 * 4096 + b % 64 * 64 + c % 64) (d % 64) 6 (by omega)
  rw [Nat.shiftLeft_eq] at h2
  rw [show (a % 8 * 64 + b % 64) * 2 ^ 12 + c % 64 * 64 = (a % 8 * 4096 + b % 64 * 64 + c % 64) * 2 ^ 6 by ring, h2]
  ring

/-- Scalar values. -/
def Scalar (v : Nat) : Prop := v ≤ 0x10FFFF ∧ ¬ (0xD800 ≤ v ∧ v ≤ 0xDFFF)

theorem char_scalar (c : Char) : Scalar c.val.toNat := by
  have := c.valid
  unfold Scalar
  rcases this with h | ⟨h1, h2⟩ <;> omega

theorem scalar_char {v : Nat} (h : Scalar v) : ∃ c : Char, c.val.toNat = v := by
  have hv : v.isValidChar := by
    unfold Scalar at h
    unfold Nat.isValidChar
    omega
  refine ⟨⟨UInt32.ofNat v, ?_⟩, ?_⟩
  · have e : (UInt32.ofNat v).toNat = v := by
      rw [UInt32.toNat_ofNat']; unfold Scalar at h; exact Nat.mod_eq_of_lt (by omega)
    unfold UInt32.isValidChar
    rw [e]; exact hv
  · simp only [UInt32.toNat_ofNat']
    unfold Scalar at h; exact Nat.mod_eq_of_lt (by omega)

theorem encodeValid_eq (c : Char) : encodeValid c.val.toNat = utf8EncodeChar c := by
  have hs := char_scalar c
  unfold Scalar at hs
  unfold encodeValid utf8EncodeChar
  generalize c.val.toNat = v at *
  simp only [and3F, shr]
  split
  · rfl
  · split
    · rw [orC0 (by omega), or80 (by omega), show v / 2 ^ 6 + 192 = v / 64 % 32 + 192 by omega]
    · split
      · rw [orE0 (by omega), or80 (by omega), or80 (by omega), show v / 2 ^ 12 + 224 = v / 4096 % 16 + 224 by omega]; rfl
      · rw [orF0 (by omega), or80 (by omega), or80 (by omega), or80 (by omega), show v / 2 ^ 18 + 240 = v / 262144 % 8 + 240 by omega]; rfl

theorem toNat_ofNat {n : Nat} (h : n < 256) : (UInt8.ofNat n).toNat = n := by
  rw [UInt8.toNat_ofNat']; exact Nat.mod_eq_of_lt h

/-- The decoder reads back what was encoded. -/
theorem decode_encode (c : Char) (rest : List UInt8) :
    decode (utf8EncodeChar c ++ rest) = (c.val.toNat, (utf8EncodeChar c).length) := by
  have hs := char_scalar c
  unfold Scalar at hs
  unfold utf8EncodeChar
  generalize c.val.toNat = v at *
  simp only
  split
  · simp only [List.cons_append, List.nil_append, decode]
    rw [toNat_ofNat (by omega), if_pos (by omega)]; rfl
  · split
    · simp only [List.cons_append, List.nil_append, decode, r2]
      rw [toNat_ofNat (by omega), toNat_ofNat (by omega), if_neg (by omega), if_pos (by omega), if_pos (by omega), if_pos (by omega)]
      simp only [List.length_cons, List.length_nil, Prod.mk.injEq, and_true]
      omega
    · split
      · simp only [List.cons_append, List.nil_append, decode, r3]
        rw [toNat_ofNat (by omega), toNat_ofNat (by omega), toNat_ofNat (by omega), if_neg (by omega), if_neg (by omega), if_pos (by omega),
          if_pos (by omega), if_pos (by omega)]
        simp only [List.length_cons, List.length_nil, Prod.mk.injEq, and_true]
        omega
      · simp only [List.cons_append, List.nil_append, decode, r4]
        rw [toNat_ofNat (by omega), toNat_ofNat (by omega), toNat_ofNat (by omega), toNat_ofNat (by omega), if_neg (by omega), if_neg (by omega),
          if_neg (by omega), if_pos (by omega), if_pos (by omega), if_pos (by omega)]
        simp only [List.length_cons, List.length_nil, Prod.mk.injEq, and_true]
        omega

theorem byte_eq (c : UInt8) {n : Nat} (h : n = c.toNat) : UInt8.ofNat n = c := by
  subst h; exact UInt8.ofNat_toNat

/-- The decoder finds the encoding of a scalar value, or an error of one byte. -/
theorem decode_cases (s : List UInt8) : (∃ c rest, s = utf8EncodeChar c ++ rest) ∨ decode s = (0xFFFD, 1) := by
  cases s with
  | nil => exact .inr rfl
  | cons c0 t =>
    have hc0 : c0.toNat < 256 := c0.toNat_lt
    by_cases h1 : c0.toNat < 0x80
    · left
      obtain ⟨c, hc⟩ := scalar_char (v := c0.toNat) (by unfold Scalar; omega)
      refine ⟨c, t, ?_⟩
      unfold utf8EncodeChar
      simp only [hc]
      rw [if_pos (by omega), byte_eq c0 rfl]; rfl
    by_cases h2 : 0xC0 ≤ c0.toNat ∧ c0.toNat < 0xE0
    · cases t with
      | nil => right; simp only [decode]; rw [if_neg h1, if_pos h2]
      | cons c1 t =>
        have hc1 : c1.toNat < 256 := c1.toNat_lt
        by_cases h3 : 0x80 ≤ c1.toNat ∧ c1.toNat ≤ 0xBF
        · by_cases h4 : 0x7F < c0.toNat % 32 * 64 + c1.toNat % 64
          · left
            obtain ⟨c, hc⟩ := scalar_char (v := c0.toNat % 32 * 64 + c1.toNat % 64) (by unfold Scalar; omega)
            refine ⟨c, t, ?_⟩
            unfold utf8EncodeChar
            simp only [hc]
            rw [if_neg (by omega), if_pos (by omega), byte_eq c0 (by omega), byte_eq c1 (by omega)]; rfl
          · right; simp only [decode, r2]; rw [if_neg h1, if_pos h2, if_pos h3, if_neg h4]
        · right; simp only [decode]; rw [if_neg h1, if_pos h2, if_neg h3]
    by_cases h3 : 0xE0 ≤ c0.toNat ∧ c0.toNat < 0xF0
    · rcases t with _ | ⟨c1, _ | ⟨c2, t⟩⟩
      · right; simp only [decode]; rw [if_neg h1, if_neg h2, if_pos h3]
      · right; simp only [decode]; rw [if_neg h1, if_neg h2, if_pos h3]
      · have hc1 : c1.toNat < 256 := c1.toNat_lt
        have hc2 : c2.toNat < 256 := c2.toNat_lt
        by_cases h4 : (0x80 ≤ c1.toNat ∧ c1.toNat ≤ 0xBF) ∧ (0x80 ≤ c2.toNat ∧ c2.toNat ≤ 0xBF)
        · by_cases h5 : 0x7FF < c0.toNat % 16 * 4096 + c1.toNat % 64 * 64 + c2.toNat % 64 ∧
            ¬ (0xD800 ≤ c0.toNat % 16 * 4096 + c1.toNat % 64 * 64 + c2.toNat % 64 ∧ c0.toNat % 16 * 4096 + c1.toNat % 64 * 64 + c2.toNat % 64 ≤ 0xDFFF)
          · left
            obtain ⟨c, hc⟩ := scalar_char (v := c0.toNat % 16 * 4096 + c1.toNat % 64 * 64 + c2.toNat % 64) (by unfold Scalar; omega)
            refine ⟨c, t, ?_⟩
            unfold utf8EncodeChar
            simp only [hc]
            rw [if_neg (by omega), if_neg (by omega), if_pos (by omega), byte_eq c0 (by omega), byte_eq c1 (by omega), byte_eq c2 (by omega)]; rfl
          · right; simp only [decode, r3]; rw [if_neg h1, if_neg h2, if_pos h3, if_pos h4, if_neg h5]
        · right; simp only [decode]; rw [if_neg h1, if_neg h2, if_pos h3, if_neg h4]
    by_cases h4 : 0xF0 ≤ c0.toNat ∧ c0.toNat < 0xF8
    · rcases t with _ | ⟨c1, _ | ⟨c2, _ | ⟨c3, t⟩⟩⟩
      · right; simp only [decode]; rw [if_neg h1, if_neg h2, if_neg h3, if_pos h4]
      · right; simp only [decode]; rw [if_neg h1, if_neg h2, if_neg h3, if_pos h4]
      · right; simp only [decode]; rw [if_neg h1, if_neg h2, if_neg h3, if_pos h4]
      · have hc1 : c1.toNat < 256 := c1.toNat_lt
        have hc2 : c2.toNat < 256 := c2.toNat_lt
        have hc3 : c3.toNat < 256 := c3.toNat_lt
        by_cases h5 : (0x80 ≤ c1.toNat ∧ c1.toNat ≤ 0xBF) ∧ (0x80 ≤ c2.toNat ∧ c2.toNat ≤ 0xBF) ∧ (0x80 ≤ c3.toNat ∧ c3.toNat ≤ 0xBF)
        · by_cases h6 : 0xFFFF < c0.toNat % 8 * 262144 + c1.toNat % 64 * 4096 + c2.toNat % 64 * 64 + c3.toNat % 64 ∧
            c0.toNat % 8 * 262144 + c1.toNat % 64 * 4096 + c2.toNat % 64 * 64 + c3.toNat % 64 ≤ 0x10FFFF
          · left
            obtain ⟨c, hc⟩ := scalar_char (v := c0.toNat % 8 * 262144 + c1.toNat % 64 * 4096 + c2.toNat % 64 * 64 + c3.toNat % 64) (by unfold Scalar; omega)
            refine ⟨c, t, ?_⟩
            unfold utf8EncodeChar
            simp only [hc]
            rw [if_neg (by omega), if_neg (by omega), if_neg (by omega), byte_eq c0 (by omega), byte_eq c1 (by omega), byte_eq c2 (by omega), byte_eq c3 (by omega)]; rfl
          · right; simp only [decode, r4]; rw [if_neg h1, if_neg h2, if_neg h3, if_pos h4, if_pos h5, if_neg h6]
        · right; simp only [decode]; rw [if_neg h1, if_neg h2, if_neg h3, if_pos h4, if_neg h5]
    · right
      simp only [decode]
      rw [if_neg h1, if_neg h2, if_neg h3, if_neg h4]

/-- The rune of a character. -/
def rune (c : Char) : Int := c.val.toNat

theorem encode_char (c : Char) : encode (rune c) = utf8EncodeChar c := by
  have hs := char_scalar c
  unfold encode rune
  have e : (((c.val.toNat : Nat) : Int) % 2 ^ 32).toNat = c.val.toNat := by
    unfold Scalar at hs; omega
  simp only [e]
  rw [if_neg (by unfold Scalar at hs; omega), encodeValid_eq]

theorem encode_some (r : Int) : ∃ c : Char, encode r = utf8EncodeChar c ∧ (Scalar ((r % 2 ^ 32).toNat) → c.val.toNat = (r % 2 ^ 32).toNat) ∧
    (¬ Scalar ((r % 2 ^ 32).toNat) → c.val.toNat = 0xFFFD) := by
  unfold encode
  by_cases h : Scalar ((r % 2 ^ 32).toNat)
  · obtain ⟨c, hc⟩ := scalar_char h
    refine ⟨c, ?_, fun _ => hc, fun h' => absurd h h'⟩
    simp only
    rw [if_neg (by unfold Scalar at h; omega), ← encodeValid_eq, hc]
  · obtain ⟨c, hc⟩ := scalar_char (v := 0xFFFD) (by unfold Scalar; omega)
    refine ⟨c, ?_, fun h' => absurd h' h, fun _ => hc⟩
    simp only
    rw [if_pos (by unfold Scalar at h; omega), ← encodeValid_eq, hc]

theorem enc_ne_nil (c : Char) : ∃ b t, utf8EncodeChar c = b :: t := by
  unfold utf8EncodeChar
  simp only
  split
  · exact ⟨_, _, rfl⟩
  · split
    · exact ⟨_, _, rfl⟩
    · split
      · exact ⟨_, _, rfl⟩
      · exact ⟨_, _, rfl⟩

theorem runes_encode (c : Char) (rest : List UInt8) : stringToRunes (utf8EncodeChar c ++ rest) = rune c :: stringToRunes rest := by
  have hd := decode_encode c rest
  obtain ⟨b, t, hbt⟩ := enc_ne_nil c
  rw [hbt, List.cons_append] at hd ⊢
  rw [stringToRunes, hd]
  simp only [rune, List.length_cons, Nat.add_sub_cancel]
  rw [List.drop_left]

theorem runes_bad (b : UInt8) (t : List UInt8) (h : ¬ ∃ c rest, b :: t = utf8EncodeChar c ++ rest) :
    stringToRunes (b :: t) = 0xFFFD :: stringToRunes t := by
  rcases decode_cases (b :: t) with hc | hd
  · exact absurd hc h
  · rw [stringToRunes, hd]; rfl

end Verif.ConvUtf8
