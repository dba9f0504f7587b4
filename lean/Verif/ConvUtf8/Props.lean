import Verif.ConvUtf8.Lemmas
/-!
# Conversions between strings, bytes and runes: property C67

`String.utf8EncodeChar` is Lean's own definition of UTF-8; a `Char` is a Unicode scalar value.
-/
namespace Verif.ConvUtf8

open String (utf8EncodeChar)

/-- C67, bytes. -/
theorem C67_bytes (b : List UInt8) : stringToBytes (bytesToString b) = b := rfl

/-- C67: runes that are scalar values come back; others come back as U+FFFD. -/
theorem C67_runes_round_trip :
    (∀ cs : List Char, runesToString (cs.map rune) = cs.flatMap utf8EncodeChar) ∧
    (∀ cs : List Char, stringToRunes (runesToString (cs.map rune)) = cs.map rune) ∧
    (∀ rs : List Int, (∀ r ∈ rs, -2 ^ 31 ≤ r ∧ r < 2 ^ 31) → stringToRunes (runesToString rs) =
      rs.map (fun r => if 0 ≤ r ∧ r ≤ 0x10FFFF ∧ ¬ (0xD800 ≤ r ∧ r ≤ 0xDFFF) then r else 0xFFFD)) := by
  have h3 : ∀ rs : List Int, (∀ r ∈ rs, -2 ^ 31 ≤ r ∧ r < 2 ^ 31) → stringToRunes (runesToString rs) =
      rs.map (fun r => if 0 ≤ r ∧ r ≤ 0x10FFFF ∧ ¬ (0xD800 ≤ r ∧ r ≤ 0xDFFF) then r else 0xFFFD) := by
    intro rs
    induction rs with
    | nil => intro _; rw [runesToString, List.flatMap_nil, stringToRunes]; rfl
    | cons r rs ih =>
      intro hr
      obtain ⟨c, h1, h2, h3⟩ := encode_some r
      have hb := hr r (by simp)
      rw [runesToString, List.flatMap_cons, h1, runes_encode, ← runesToString, ih (fun x hx => hr x (by simp [hx]))]
      rw [List.map_cons]
      congr 1
      unfold rune Scalar at *
      split
      · rw [h2 (by omega)]; omega
      · rw [h3 (by omega)]; rfl
  have h1 : ∀ cs : List Char, runesToString (cs.map rune) = cs.flatMap utf8EncodeChar := fun cs => by
    simp only [runesToString, List.flatMap_map, encode_char]
  refine ⟨h1, fun cs => ?_, h3⟩
  rw [h1]
  induction cs with
  | nil => rw [List.flatMap_nil, stringToRunes]; rfl
  | cons c cs ih => rw [List.flatMap_cons, runes_encode, ih, List.map_cons]

/-- C67: a string comes back from runes exactly when it is valid UTF-8. -/
theorem C67_string_round_trip (s : List UInt8) :
    runesToString (stringToRunes s) = s ↔ ∃ cs : List Char, s = cs.flatMap utf8EncodeChar := by
  constructor
  · intro h
    rw [← h]
    generalize stringToRunes s = rs
    induction rs with
    | nil => exact ⟨[], rfl⟩
    | cons r rs ih =>
      obtain ⟨cs, hcs⟩ := ih
      obtain ⟨c, hc, _⟩ := encode_some r
      exact ⟨c :: cs, by rw [runesToString, List.flatMap_cons, hc, ← runesToString, hcs, List.flatMap_cons]⟩
  · rintro ⟨cs, rfl⟩
    have h := C67_runes_round_trip
    rw [← h.1, h.2.1, h.1]

/-- C67: what the runes of any string are. -/
theorem C67_invalid_bytes : stringToRunes [] = [] ∧
    (∀ (c : Char) (t : List UInt8), stringToRunes (utf8EncodeChar c ++ t) = rune c :: stringToRunes t) ∧
    (∀ (b : UInt8) (t : List UInt8), (¬ ∃ c rest, b :: t = utf8EncodeChar c ++ rest) → stringToRunes (b :: t) = 0xFFFD :: stringToRunes t) :=
  ⟨by rw [stringToRunes], runes_encode, runes_bad⟩

/-- "é€" and a stray byte. -/
example : stringToRunes ([0xC3, 0xA9, 0xE2, 0x82, 0xAC, 0xFF] : List UInt8) = [0xE9, 0x20AC, 0xFFFD] ∧
    (¬ ∃ c rest, ([0xFF] : List UInt8) = utf8EncodeChar c ++ rest) := by
  have h1 : utf8EncodeChar 'é' = [0xC3, 0xA9] := by decide
  have h2 : utf8EncodeChar '€' = [0xE2, 0x82, 0xAC] := by decide
  have h3 : ¬ ∃ c rest, ([0xFF] : List UInt8) = utf8EncodeChar c ++ rest := by
    rintro ⟨c, rest, h⟩
    have := decode_encode c rest
    rw [← h] at this
    have e : decode [0xFF] = (0xFFFD, 1) := by decide
    rw [e] at this
    obtain ⟨a, b⟩ := Prod.mk.inj this
    have : utf8EncodeChar c = [0xEF, 0xBF, 0xBD] := by rw [← encodeValid_eq, ← a]; decide
    rw [this] at h; simp at h
  refine ⟨?_, h3⟩
  have := runes_encode 'é' (utf8EncodeChar '€' ++ [0xFF])
  rw [runes_encode '€', runes_bad _ _ h3, h1, h2, stringToRunes] at this
  exact this

end Verif.ConvUtf8
