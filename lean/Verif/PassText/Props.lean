import Verif.PassText.Lemmas
import Verif.PassHash.Props
/-!
# C174: the text of a password record
-/
namespace Verif.PassText
open Verif.Go Verif.PassHash Verif.ConvNum

/-- **C174, any bytes.** `String` panics on nothing. For a record it writes the name of the algorithm (nothing for an unknown one), the salt and the hash;
for everything else one fixed text. -/
theorem C174_text (s : Slice) :
    (∃ prm slt hsh a b, IsRecord s.bytes prm slt hsh ∧ Lists slt a ∧ Lists hsh b ∧
      text s = .ret (lit "PasswordHash {Param: " ++ lit (names.getD prm.toNat "") ++ lit ", Salt: " ++ a ++ lit ", Hash: " ++ b ++ lit "}")) ∨
    (¬ (∃ prm slt hsh, IsRecord s.bytes prm slt hsh) ∧ text s = .ret (lit "PasswordHash (invalid)")) := by
  by_cases h : ∃ prm slt hsh, IsRecord s.bytes prm slt hsh
  · obtain ⟨prm, slt, hsh, h⟩ := h
    refine .inl ⟨prm, slt, hsh, _, _, h, sprint_lists slt, sprint_lists hsh, ?_⟩
    rw [text_record h]
    congr 6
    rcases params_cases prm with (rfl | rfl | rfl | rfl) | h4
    · rfl
    · rfl
    · rfl
    · rfl
    · rw [paramString_other h4, List.getD_eq_getElem?_getD, List.getElem?_eq_none (by simpa [names] using h4)]
      rfl
  · exact .inr ⟨h, text_not h⟩

/-- **C174.** What has the same text is treated the same by `Verify`, for every password and key derivation. -/
theorem C174_same {s s' : Slice} (h : text s = text s') (K : Kdf) (password : List UInt8) : verify K password s = verify K password s' := by
  by_cases h1 : ∃ prm slt hsh, IsRecord s.bytes prm slt hsh <;> by_cases h2 : ∃ prm slt hsh, IsRecord s'.bytes prm slt hsh
  · obtain ⟨p, x, y, r⟩ := h1
    obtain ⟨p', x', y', r'⟩ := h2
    rw [text_record r, text_record r', Outcome.ret.injEq] at h
    obtain ⟨h1, rfl, rfl⟩ := text_inj h
    rw [verify_record K password r, verify_record K password r']
    rcases h1 with rfl | ⟨h1, h2⟩
    · rfl
    · have e : ∀ p : UInt8, 4 ≤ p.toNat → derive K p password x = none := by
        intro p hp
        have : params p.toNat = none := by unfold params; split <;> first | rfl | omega
        rw [derive, this]; rfl
      rw [e p h1, e p' h2]
  · obtain ⟨p, x, y, r⟩ := h1
    rw [text_record r, text_not h2, Outcome.ret.injEq] at h
    simp only [List.append_assoc] at h
    exact absurd h (text_valid _)
  · obtain ⟨p, x, y, r⟩ := h2
    rw [text_record r, text_not h1, Outcome.ret.injEq] at h
    simp only [List.append_assoc] at h
    exact absurd h.symm (text_valid _)
  · rw [verify_not K password h1, verify_not K password h2]

/-- **C174, records of a known algorithm** with the same text have the same algorithm, salt and hash. -/
theorem C174_known {s s' : Slice} {p p' : UInt8} {x y x' y' : List UInt8} (r : IsRecord s.bytes p x y) (r' : IsRecord s'.bytes p' x' y') (hp : p.toNat < 4)
    (h : text s = text s') : p = p' ∧ x = x' ∧ y = y' := by
  rw [text_record r, text_record r', Outcome.ret.injEq] at h
  obtain ⟨h1, h2, h3⟩ := text_inj h
  exact ⟨h1.resolve_right fun h => by omega, h2, h3⟩

/-- **C174, what `Hash` made** has a text with the name of its level. -/
theorem C174_hash (K : Kdf) (hK : ∀ p s t m th l, (K p s t m th l).length = l) (rnd : Rand) (slt : List UInt8) (hr : rnd 16 = (slt, 16, false))
    (hs : slt.length = 16) (password : List UInt8) (sl : Int) (h : 1 ≤ sl ∧ sl ≤ 4) :
    ∃ r k a b, hashPw K rnd password sl = .ret (.ok r) ∧ IsRecord r (UInt8.ofNat (sl - 1).toNat) slt k ∧ Lists slt a ∧ Lists k b ∧
      text (.of r) = .ret (lit "PasswordHash {Param: " ++ lit (names.getD (sl - 1).toNat "") ++ lit ", Salt: " ++ a ++ lit ", Hash: " ++ b ++ lit "}") := by
  obtain ⟨r, k, h1, h2, h3, h4, -⟩ := C70_hash_verify K hK rnd slt hr hs password sl h
  have hb : (Slice.of r).bytes = r := by simp [Slice.of, Slice.bytes]
  have hrec : IsRecord (Slice.of r).bytes (UInt8.ofNat (sl - 1).toNat) slt k := by
    refine ⟨[], by rw [hb, h3, List.append_nil], ?_⟩
    have : r.length = 17 + slt.length + k.length := by rw [h3]; simp [record, le64]; omega
    omega
  refine ⟨r, k, sprint slt, sprint k, h1, hb ▸ hrec, sprint_lists slt, sprint_lists k, ?_⟩
  rw [text_record hrec]
  congr 6
  have : sl = 1 ∨ sl = 2 ∨ sl = 3 ∨ sl = 4 := by omega
  rcases this with rfl | rfl | rfl | rfl <;> decide +kernel

/-- **C174, `Match`.** Handlers that write each its algorithm's name write what `String` gives; for an unknown algorithm no handler is called, not even a nil one. -/
theorem C174_match (e : UInt8) (out : List UInt8) :
    dispatch e (some fun o => .ret (o ++ lit "Argon2ID_High")) (some fun o => .ret (o ++ lit "Argon2ID_Low")) (some fun o => .ret (o ++ lit "Argon2ID_Mobile_High"))
      (some fun o => .ret (o ++ lit "Argon2ID_Mobile_Low")) out = .ret (out ++ paramString e) ∧
    (dispatch e none none none none out = .ret out ↔ 4 ≤ e.toNat) := by
  rcases params_cases e with (rfl | rfl | rfl | rfl) | h
  · exact ⟨rfl, by simp [dispatch, call]⟩
  · exact ⟨rfl, by simp [dispatch, call]⟩
  · exact ⟨rfl, by simp [dispatch, call]⟩
  · exact ⟨rfl, by simp [dispatch, call]⟩
  · rw [paramString_other h]
    refine ⟨?_, fun _ => h, fun _ => ?_⟩
    · rw [List.append_nil]; unfold dispatch; split <;> first | rfl | omega
    · unfold dispatch; split <;> first | rfl | omega

/-- A record with its text; the trailing byte is not shown. -/
example : IsRecord (Slice.of (record 1 [7, 200] [0, 10] ++ [9])).bytes 1 [7, 200] [0, 10] ∧
    text (.of (record 1 [7, 200] [0, 10] ++ [9])) = .ret (lit "PasswordHash {Param: Argon2ID_Low, Salt: [7 200], Hash: [0 10]}") := by
  have h : IsRecord (Slice.of (record 1 [7, 200] [0, 10] ++ [9])).bytes 1 [7, 200] [0, 10] := ⟨[9], by simp [Slice.of, Slice.bytes], by decide⟩
  exact ⟨h, by rw [text_record h]; decide +kernel⟩

/-- Records of unknown algorithms can have the same text and be different; `Verify` says the same about them. -/
example : text (.of (record 4 [] [])) = text (.of (record 5 [] [])) := by
  rw [text_record (prm := 4) (slt := []) (hsh := []) ⟨[], by simp [Slice.of, Slice.bytes], by decide⟩,
    text_record (prm := 5) (slt := []) (hsh := []) ⟨[], by simp [Slice.of, Slice.bytes], by decide⟩]
  rfl

end Verif.PassText
