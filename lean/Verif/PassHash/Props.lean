import Verif.PassHash.B64
/-!
# Properties of `passhashx`
-/
namespace Verif.PassHash
open Verif.Go

/-! ## C68 -/

/-- C68: what `New_PasswordHash` writes has the layout of the specification, validates, and reads back as what was
written, also from a slice with a larger capacity. -/
theorem C68_round_trip (prm : UInt8) (slt hsh : List UInt8) (h : 17 + slt.length + hsh.length < 2 ^ 63) :
    ∃ r, newRecord prm slt hsh = .ret r ∧ r = record prm slt hsh ∧ r.length = 17 + slt.length + hsh.length ∧
      ∀ s : Slice, s.bytes = r → validate s = .ret true ∧ param s = .ret prm ∧ salt s = .ret slt ∧ hash s = .ret hsh := by
  refine ⟨_, newRecord_eq h, rfl, ?_, ?_⟩
  · simp [record, le64]
    omega
  · intro s hs
    exact parse ⟨[], by simpa using hs, by omega⟩

example : newRecord 2 [7, 8] [9] = .ret [2, 19, 0, 0, 0, 0, 0, 0, 0, 20, 0, 0, 0, 0, 0, 0, 0, 7, 8, 9] := by
  rw [newRecord_eq (by decide)]; rfl
example : ∃ s : Slice, s.bytes = record 2 [7, 8] [9] ∧ s.len < s.mem.length :=
  ⟨⟨record 2 [7, 8] [9] ++ [1, 1], 20, by decide⟩, by decide, by decide⟩

/-! ## C69 -/

/-- C69: no bytes make `Vstruct_Validate` or `Verify` panic; of a validated slice every accessor returns, and what
it returns lies within the length of the slice, not just its capacity. -/
theorem C69_no_panic (s : Slice) :
    (∃ b, validate s = .ret b) ∧
    (validate s = .ret true → ∃ prm slt hsh, param s = .ret prm ∧ salt s = .ret slt ∧ hash s = .ret hsh ∧
      17 + slt.length + hsh.length ≤ s.len ∧ slt ++ hsh <+: s.bytes.drop 17) ∧
    (∀ (K : Kdf) (password : List UInt8), ∃ e, verify K password s = .ret e) := by
  have hb : s.bytes.length = s.len := by have := s.ok; simp [Slice.bytes, this]
  rcases validate_cases s with ⟨h, prm, slt, hsh, hr⟩ | ⟨h, hn⟩
  · refine ⟨⟨_, h⟩, fun _ => ?_, fun K pw => ⟨_, verify_record K pw hr⟩⟩
    obtain ⟨_, h2, h3, h4⟩ := parse hr
    refine ⟨prm, slt, hsh, h2, h3, h4, ?_⟩
    obtain ⟨tail, ht, _⟩ := hr
    rw [← hb, ht]
    refine ⟨by simp [record, le64]; omega, tail, ?_⟩
    rw [record, le64_eq, le64_eq]
    simp
  · refine ⟨⟨_, h⟩, fun h' => ?_, fun K pw => ⟨_, verify_not K pw hn⟩⟩
    rw [h] at h'
    simp at h'

/-- Without validation the accessors do panic. -/
theorem C69_accessor_needs_validate : salt (.of (0 :: List.replicate 16 255)) = .panic ∧ validate (.of (0 :: List.replicate 16 255)) = .ret false := by
  decide

/-- Nor does the base64 form panic. -/
theorem C69_base64 (K : Kdf) (password s : List UInt8) : ∃ e, verifyBase64 K password s = .ret e := by
  unfold verifyBase64
  split
  · exact ⟨_, rfl⟩
  · exact (C69_no_panic _).2.2 K password

/-! ## C70 -/

theorem hashPw_eq {K : Kdf} (hK : ∀ p s t m th l, (K p s t m th l).length = l) {rnd : Rand} {slt : List UInt8} (hr : rnd 16 = (slt, 16, false))
    (hs : slt.length = 16) (password : List UInt8) {sl : Int} (h : 1 ≤ sl ∧ sl ≤ 4) :
    ∃ k, derive K (UInt8.ofNat (sl - 1).toNat) password slt = some k ∧ k.length = 32 ∧
      hashPw K rnd password sl = .ret (.ok (record (UInt8.ofNat (sl - 1).toNat) slt k)) := by
  have key : ∀ (prm : UInt8) (k : List UInt8) (f : List UInt8 → List UInt8 → Outcome (List UInt8)),
      securityLevel sl = (prm, true) → saltLen prm = 16 → alg K prm = some f → f password slt = .ret k → prm.toNat < 4 → k.length = 32 →
      hashPw K rnd password sl = .ret (.ok (record prm slt k)) := by
    intro prm k f h1 h2 h3 h4 h5 h6
    unfold hashPw
    rw [h1]
    simp only [h2, hr]
    rw [if_neg (by simp), if_pos h5]
    rw [h3]
    simp only [h4, bind, Outcome.bind_ret]
    rw [newRecord_eq (by rw [hs, h6]; norm_num)]
    rfl
  have hsl : sl = 1 ∨ sl = 2 ∨ sl = 3 ∨ sl = 4 := by omega
  rcases hsl with rfl | rfl | rfl | rfl
  · exact ⟨_, rfl, hK _ _ _ _ _ _, key 0 _ _ rfl rfl rfl rfl (by decide) (hK _ _ _ _ _ _)⟩
  · exact ⟨_, rfl, hK _ _ _ _ _ _, key 1 _ _ rfl rfl rfl rfl (by decide) (hK _ _ _ _ _ _)⟩
  · exact ⟨_, rfl, hK _ _ _ _ _ _, key 2 _ _ rfl rfl rfl rfl (by decide) (hK _ _ _ _ _ _)⟩
  · exact ⟨_, rfl, hK _ _ _ _ _ _, key 3 _ _ rfl rfl rfl rfl (by decide) (hK _ _ _ _ _ _)⟩

/-- C70: hashing at one of the four levels with a random source that delivers gives a record of 65 bytes with the
drawn salt and the derived key, and `Verify` accepts it for the same password. -/
theorem C70_hash_verify (K : Kdf) (hK : ∀ p s t m th l, (K p s t m th l).length = l) (rnd : Rand) (slt : List UInt8)
    (hr : rnd 16 = (slt, 16, false)) (hs : slt.length = 16) (password : List UInt8) (sl : Int) (h : 1 ≤ sl ∧ sl ≤ 4) :
    ∃ r k, hashPw K rnd password sl = .ret (.ok r) ∧ derive K (UInt8.ofNat (sl - 1).toNat) password slt = some k ∧
      r = record (UInt8.ofNat (sl - 1).toNat) slt k ∧ r.length = 65 ∧
      ∀ s : Slice, s.bytes = r → verify K password s = .ret none := by
  obtain ⟨k, h1, h2, h3⟩ := hashPw_eq hK hr hs password h
  refine ⟨_, k, h3, h1, rfl, by simp [record, le64, hs, h2], ?_⟩
  intro s hb
  rw [verify_record K password (prm := UInt8.ofNat (sl - 1).toNat) (slt := slt) (hsh := k) ⟨[], by simpa using hb, by rw [hs, h2]; norm_num⟩, h1]
  simp

/-- Any other level is refused, whatever the random source. -/
theorem C70_bad_level (K : Kdf) (rnd : Rand) (password : List UInt8) (sl : Int) (h : ¬ (1 ≤ sl ∧ sl ≤ 4)) :
    hashPw K rnd password sl = .ret (.error .invalidSecurityLevel) := by
  unfold hashPw securityLevel
  rw [if_neg (by omega), if_neg (by omega), if_neg (by omega), if_neg (by omega)]

/-- A random source that fails or delivers too little is noticed: no record is made with it. -/
theorem C70_bad_rand (K : Kdf) (rnd : Rand) (password : List UInt8) (sl : Int) (h : 1 ≤ sl ∧ sl ≤ 4)
    (hr : (rnd 16).2.2 = true ∨ (rnd 16).2.1 ≠ 16) : hashPw K rnd password sl = .ret (.error .readSaltFailed) := by
  have key : ∀ prm : UInt8, securityLevel sl = (prm, true) → saltLen prm = 16 → hashPw K rnd password sl = .ret (.error .readSaltFailed) := by
    intro prm h1 h2
    unfold hashPw
    rw [h1]
    simp only [h2]
    rw [if_pos hr]
  have hsl : sl = 1 ∨ sl = 2 ∨ sl = 3 ∨ sl = 4 := by omega
  rcases hsl with rfl | rfl | rfl | rfl
  · exact key 0 rfl rfl
  · exact key 1 rfl rfl
  · exact key 2 rfl rfl
  · exact key 3 rfl rfl

/-- A key derivation function that tells passwords apart by their first byte. -/
def exK : Kdf := fun p s _ _ _ l => (p ++ s ++ List.replicate l 0).take l
theorem exK_len : ∀ p s t m th l, (exK p s t m th l).length = l := by intro p s t m th l; simp [exK]; omega
def exRnd : Rand := fun n => (List.replicate n 5, n, false)

example : exRnd 16 = (List.replicate 16 5, 16, false) := rfl
example : ∃ r, hashPw exK exRnd [1, 2] 3 = .ret (.ok r) ∧ verify exK [1, 2] (.of r) = .ret none ∧ verify exK [1, 3] (.of r) = .ret (some .hashMismatch) := by
  refine ⟨record 2 (List.replicate 16 5) ([1, 2] ++ List.replicate 16 5 ++ List.replicate 14 0), ?_, ?_, ?_⟩
  · obtain ⟨r, k, h1, h2, h3, _⟩ := C70_hash_verify exK exK_len exRnd _ rfl rfl [1, 2] 3 (by decide)
    rw [h1, h3]
    have : k = [1, 2] ++ List.replicate 16 5 ++ List.replicate 14 0 := by
      have h4 : derive exK (UInt8.ofNat ((3 : Int) - 1).toNat) [1, 2] (List.replicate 16 5) =
        some ([1, 2] ++ List.replicate 16 5 ++ List.replicate 14 0) := by decide
      rw [h4] at h2
      exact (Option.some.inj h2).symm
    rw [this]
    rfl
  · rw [verify_record exK [1, 2] (prm := 2) (slt := List.replicate 16 5) (hsh := [1, 2] ++ List.replicate 16 5 ++ List.replicate 14 0)
      ⟨[], by simp [Slice.of, Slice.bytes], by decide⟩]
    decide
  · rw [verify_record exK [1, 3] (prm := 2) (slt := List.replicate 16 5) (hsh := [1, 2] ++ List.replicate 16 5 ++ List.replicate 14 0)
      ⟨[], by simp [Slice.of, Slice.bytes], by decide⟩]
    decide

/-! ## C71 -/

/-- C71: `Verify` returns nil exactly for a record (perhaps followed by other bytes) of a known algorithm whose hash
is the key derived from the password and the record's salt. -/
theorem C71_accepts_iff (K : Kdf) (password : List UInt8) (s : Slice) :
    verify K password s = .ret none ↔ ∃ prm slt hsh, IsRecord s.bytes prm slt hsh ∧ derive K prm password slt = some hsh := by
  constructor
  · intro h
    rcases validate_cases s with ⟨_, prm, slt, hsh, hr⟩ | ⟨_, hn⟩
    · refine ⟨prm, slt, hsh, hr, ?_⟩
      rw [verify_record K password hr] at h
      split at h
      · simp at h
      · rename_i k hk
        split at h
        · rename_i e; rw [hk, e]
        · simp at h
    · rw [verify_not K password hn] at h
      simp at h
  · rintro ⟨prm, slt, hsh, hr, hd⟩
    rw [verify_record K password hr, hd]
    simp

/-- The errors: of a record with an unknown algorithm, with another key, and of anything else. -/
theorem C71_rejects (K : Kdf) (password : List UInt8) (s : Slice) :
    (∀ prm slt hsh, IsRecord s.bytes prm slt hsh → derive K prm password slt = none → verify K password s = .ret (some .unknownAlgorithm)) ∧
    (∀ prm slt hsh k, IsRecord s.bytes prm slt hsh → derive K prm password slt = some k → k ≠ hsh →
      verify K password s = .ret (some .hashMismatch)) ∧
    ((¬ ∃ prm slt hsh, IsRecord s.bytes prm slt hsh) → verify K password s = .ret (some .invalidPassHash)) := by
  refine ⟨?_, ?_, verify_not K password⟩
  · intro prm slt hsh hr hd
    rw [verify_record K password hr, hd]
  · intro prm slt hsh k hr hd hk
    rw [verify_record K password hr, hd]
    simp [hk]

/-- A record with a proper prefix of the key, down to the empty one, is rejected. -/
theorem C71_truncated (K : Kdf) (password : List UInt8) (s : Slice) (prm : UInt8) (slt k : List UInt8) (n : Nat)
    (hd : derive K prm password slt = some k) (hn : n < k.length) (hr : IsRecord s.bytes prm slt (k.take n)) :
    verify K password s = .ret (some .hashMismatch) := by
  refine (C71_rejects K password s).2.1 prm slt _ k hr hd ?_
  intro h
  have := congrArg List.length h
  simp at this
  omega

/-- The result depends on the bytes of the slice only, not on the memory behind them. -/
theorem C71_bytes_only (K : Kdf) (password : List UInt8) (s s' : Slice) (h : s.bytes = s'.bytes) : verify K password s = verify K password s' := by
  by_cases hr : ∃ prm slt hsh, IsRecord s.bytes prm slt hsh
  · obtain ⟨prm, slt, hsh, hr⟩ := hr
    rw [verify_record K password hr, verify_record K password (h ▸ hr)]
  · rw [verify_not K password hr, verify_not K password (h ▸ hr)]

example : IsRecord (record 1 [5] ((exK [7] [5] 32 4096 1 32).take 3)) 1 [5] ((exK [7] [5] 32 4096 1 32).take 3) ∧
    derive exK 1 [7] [5] = some (exK [7] [5] 32 4096 1 32) ∧ 3 < (exK [7] [5] 32 4096 1 32).length :=
  ⟨⟨[], by simp, by decide⟩, rfl, by decide⟩
example : IsRecord (record 9 [] []) 9 [] [] ∧ derive exK 9 [7] [] = none := ⟨⟨[], by simp, by decide⟩, rfl⟩
example : ¬ ∃ prm slt hsh, IsRecord [1, 2, 3] prm slt hsh := by
  rintro ⟨prm, slt, hsh, t, h, _⟩
  have := congrArg List.length h
  simp [record, le64] at this
  omega

/-! ## C72 -/

/-- C72, the encoding: only characters of the URL alphabet and no padding; as long as needed for six bits per
character; the digits of the same number, shifted by the bits left over; and decoded it is what was encoded. -/
theorem C72_encoding (b : List UInt8) :
    (∀ c ∈ encode64 b, (sextet c).isSome = true) ∧ (encode64 b).length = (8 * b.length + 5) / 6 ∧
    num64 (encode64 b) = num256 b * 4 ^ ((3 - b.length % 3) % 3) ∧ decode64 (encode64 b) = some b :=
  ⟨encode_alphabet b, encode_length b, foldl_encode b 0, decode64_encode64 b⟩

/-- C72, the round trip: `HashBase64` fails as `Hash` fails, otherwise its result is the encoding of what `Hash` gives
for the same salt, and `VerifyBase64` accepts it. -/
theorem C72_hash (K : Kdf) (hK : ∀ p s t m th l, (K p s t m th l).length = l) (rnd : Rand) (slt : List UInt8)
    (hr : rnd 16 = (slt, 16, false)) (hs : slt.length = 16) (password : List UInt8) (sl : Int) (h : 1 ≤ sl ∧ sl ≤ 4) :
    ∃ r, hashPw K rnd password sl = .ret (.ok r) ∧ hashBase64 K rnd password sl = .ret (.ok (encode64 r)) ∧
      (encode64 r).length = 87 ∧ verifyBase64 K password (encode64 r) = .ret none := by
  obtain ⟨r, k, h1, _, _, hl, h2⟩ := C70_hash_verify K hK rnd slt hr hs password sl h
  refine ⟨r, h1, ?_, ?_, ?_⟩
  · unfold hashBase64
    rw [h1]
    rfl
  · rw [encode_length, hl]
  · unfold verifyBase64
    rw [decode64_encode64]
    exact h2 _ (by simp [Slice.of, Slice.bytes])

theorem C72_hash_error (K : Kdf) (rnd : Rand) (password : List UInt8) (sl : Int) (e : Err) (h : hashPw K rnd password sl = .ret (.error e)) :
    hashBase64 K rnd password sl = .ret (.error e) := by
  unfold hashBase64
  rw [h]
  rfl

/-- The two forms are verified alike. -/
theorem C72_verify (K : Kdf) (password r : List UInt8) : verifyBase64 K password (encode64 r) = verify K password (.of r) := by
  unfold verifyBase64
  rw [decode64_encode64]

/-- The full claim about other characters: a string containing one is rejected. -/
def C72_full : Prop :=
  ∀ (K : Kdf) (password s : List UInt8) (c : UInt8), c ∈ s → sextet c = none → ∃ e, verifyBase64 K password s = .ret (some e)

/-- It holds for all characters but the carriage return and the newline, which `encoding/base64` skips. -/
theorem C72_other_characters_partial (K : Kdf) (password s : List UInt8) (c : UInt8) (hc : c ∈ s) (hn : sextet c = none)
    (h10 : c ≠ 10) (h13 : c ≠ 13) : verifyBase64 K password s = .ret (some .corruptInput) := by
  unfold verifyBase64 decode64
  rw [decChars_none (c := c) (List.mem_filter.2 ⟨hc, by simp [h10, h13]⟩) hn]

/-- Newlines and carriage returns anywhere in the string change nothing. -/
theorem C72_newlines (K : Kdf) (password s : List UInt8) : verifyBase64 K password s = verifyBase64 K password (s.filter (fun c => c ≠ 10 ∧ c ≠ 13)) := by
  unfold verifyBase64 decode64
  rw [List.filter_filter]
  simp only [Bool.and_self]

/-- What is decoded at all: strings of the alphabet, apart from newlines, whose last group is not a single character. -/
theorem C72_decodes_iff (s : List UInt8) : (decode64 s).isSome = true ↔
    (∀ c ∈ s, c ≠ 10 → c ≠ 13 → (sextet c).isSome = true) ∧ (s.filter (fun c => c ≠ 10 ∧ c ≠ 13)).length % 4 ≠ 1 := by
  unfold decode64
  obtain ⟨h1, h2⟩ := decChars_isSome (s.filter (fun c => c ≠ 10 ∧ c ≠ 13))
  have e : (∀ c ∈ s, c ≠ 10 → c ≠ 13 → (sextet c).isSome = true) ↔ (decChars (s.filter (fun c => c ≠ 10 ∧ c ≠ 13))).isSome = true := by
    rw [h1]
    simp only [List.mem_filter, decide_eq_true_eq]
    exact ⟨fun h c hc => h c hc.1 hc.2.1 hc.2.2, fun h c hc g1 g2 => h c ⟨hc, g1, g2⟩⟩
  rw [e]
  cases hd : decChars (s.filter (fun c => c ≠ 10 ∧ c ≠ 13)) with
  | none => simp
  | some vs =>
    simp only [assemble_isSome, h2 vs hd, Option.isSome_some, true_and]

theorem C72_refuted : ¬ C72_full := by
  intro h
  obtain ⟨r, _, _, _, h4⟩ := C72_hash exK exK_len exRnd _ rfl rfl [1] 1 (by decide)
  obtain ⟨e, he⟩ := h exK [1] (10 :: encode64 r) 10 (by simp) (by decide)
  rw [C72_newlines, List.filter_cons_of_neg (by simp), filter_encode, h4] at he
  simp at he

example : sextet 61 = none ∧ (61 : UInt8) ≠ 10 ∧ (61 : UInt8) ≠ 13 := by decide
example : encode64 [77, 97, 110] = [84, 87, 70, 117] ∧ encode64 [251, 255] = [45, 95, 56] := by decide

/-! ## C83 -/

/-- The full claim: what `VerifyBase64` accepts is the encoding of the record it decodes to, so that a record has one
text form. -/
def C83_full : Prop := ∀ (s b : List UInt8), decode64 s = some b → s = encode64 b

/-- It holds for strings without newlines whose length is a multiple of four. -/
theorem C83_one_form_partial (s b : List UInt8) (h : ∀ c ∈ s, c ≠ 10 ∧ c ≠ 13) (hl : s.length % 4 = 0) (hd : decode64 s = some b) :
    s = encode64 b := by
  unfold decode64 at hd
  rw [List.filter_eq_self.2 (by simpa using h)] at hd
  split at hd
  · rename_i vs hv
    exact decode_inj hl hv hd
  · cases hd

/-- Otherwise the bits left over in the last character are not checked. -/
theorem C83_refuted : ¬ C83_full := by
  intro h
  have := h [65, 66] [0] (by decide)
  revert this
  decide

/-- The record that `Hash` makes has 65 bytes, so bits are always left over: each text form `HashBase64` gives can be
changed, within the alphabet and keeping its length, and is still accepted for the password. -/
theorem C83_hash_refuted (K : Kdf) (hK : ∀ p s t m th l, (K p s t m th l).length = l) (rnd : Rand) (slt : List UInt8)
    (hr : rnd 16 = (slt, 16, false)) (hs : slt.length = 16) (password : List UInt8) (sl : Int) (h : 1 ≤ sl ∧ sl ≤ 4) :
    ∃ s s', hashBase64 K rnd password sl = .ret (.ok s) ∧ s' ≠ s ∧ s'.length = s.length ∧ (∀ c ∈ s', (sextet c).isSome = true) ∧
      verifyBase64 K password s' = .ret none := by
  obtain ⟨r, h1, h2, h3, h4⟩ := C72_hash K hK rnd slt hr hs password sl h
  obtain ⟨r', _, h1', _, _, hl, _⟩ := C70_hash_verify K hK rnd slt hr hs password sl h
  rw [h1] at h1'
  simp only [Outcome.ret.injEq, Except.ok.injEq] at h1'
  subst h1'
  obtain ⟨s, g1, g2, g3, g4⟩ := decode64_other r (by rw [hl]; decide)
  refine ⟨_, s, h2, g1, g2, g3, ?_⟩
  rw [C72_verify] at h4
  unfold verifyBase64
  rw [g4]
  exact h4

example : (∀ c ∈ ([84, 87, 70, 117] : List UInt8), c ≠ 10 ∧ c ≠ 13) ∧ decode64 [84, 87, 70, 117] = some [77, 97, 110] := by decide

end Verif.PassHash
