import Verif.PassCost.Spec
import Verif.PassHash.Props
/-!
# C138: what a record can make Verify do
-/
namespace Verif.PassCost
open Verif.Go Verif.PassHash

/-- The call for a known algorithm. -/
theorem call_of {prm : UInt8} {a : Nat × Nat × Nat × Nat} (h : params prm.toNat = some a) (p s : List UInt8) :
    Moderate ⟨p, s, a.1, a.2.1, a.2.2.1, a.2.2.2⟩ ∧
    ∀ K, derive K prm p s = some (Call.ask ⟨p, s, a.1, a.2.1, a.2.2.1, a.2.2.2⟩ K) := by
  refine ⟨?_, fun K => by simp [derive, h, Call.ask]⟩
  unfold params at h
  split at h <;> first | cases h | skip
  all_goals exact ⟨by dsimp only; omega, by dsimp only; omega, by dsimp only; omega, by dsimp only; omega, by dsimp only; omega, rfl⟩

theorem some_call (p : List UInt8) : ∃ c : Call, c.password = p ∧ c.salt = [] ∧ Moderate c :=
  ⟨⟨p, [], 20, 65536, 4, 32⟩, rfl, rfl, by dsimp only; omega, by dsimp only; omega, by dsimp only; omega, by dsimp only; omega, by dsimp only; omega, rfl⟩

/-- **C138** Whatever the bytes, `Verify` derives at most one key, from the password as it is and a salt that is part of
the record, at a moderate cost; the record has no other influence on the cost. -/
theorem C138_verify (password : List UInt8) (s : Slice) :
    ∃ c : Call, c.password = password ∧ c.salt <:+: s.bytes ∧ Moderate c ∧ AsksOnly (fun K => verify K password s) c := by
  by_cases h : ∃ prm slt hsh, IsRecord s.bytes prm slt hsh
  · obtain ⟨prm, slt, hsh, h⟩ := h
    cases hp : params prm.toNat with
    | none =>
      obtain ⟨c, h1, h2, h3⟩ := some_call password
      refine ⟨c, h1, by rw [h2]; exact List.nil_infix, h3, fun K K' _ => ?_⟩
      simp only
      rw [verify_record K password h, verify_record K' password h]
      simp [derive, hp]
    | some a =>
      obtain ⟨h1, h2⟩ := call_of hp password slt
      refine ⟨_, rfl, ?_, h1, fun K K' hk => ?_⟩
      · obtain ⟨tail, e, _⟩ := h
        refine ⟨prm :: le64 (17 + slt.length) ++ le64 (17 + slt.length + hsh.length), hsh ++ tail, ?_⟩
        rw [e]
        simp [record]
      · simp only
        rw [verify_record K password h, verify_record K' password h, h2 K, h2 K', hk]
  · obtain ⟨c, h1, h2, h3⟩ := some_call password
    refine ⟨c, h1, by rw [h2]; exact List.nil_infix, h3, fun K K' _ => ?_⟩
    simp only
    rw [verify_not K password h, verify_not K' password h]

/-- **C138** Bytes that are no record, or of an unknown algorithm, cost nothing. -/
theorem C138_garbage (password : List UInt8) (s : Slice)
    (h : ∀ prm slt hsh, IsRecord s.bytes prm slt hsh → 4 ≤ prm.toNat) (K K' : Kdf) :
    verify K password s = verify K' password s := by
  by_cases hr : ∃ prm slt hsh, IsRecord s.bytes prm slt hsh
  · obtain ⟨prm, slt, hsh, hr⟩ := hr
    have hp : params prm.toNat = none := by
      have := h _ _ _ hr
      unfold params
      split <;> first | omega | rfl
    rw [verify_record K password hr, verify_record K' password hr]
    simp [derive, hp]
  · rw [verify_not K password hr, verify_not K' password hr]

/-- **C138 for `VerifyBase64`.** -/
theorem C138_base64 (password s : List UInt8) :
    ∃ c : Call, c.password = password ∧ Moderate c ∧ AsksOnly (fun K => verifyBase64 K password s) c := by
  cases h : decode64 s with
  | none =>
    obtain ⟨c, h1, _, h3⟩ := some_call password
    exact ⟨c, h1, h3, fun K K' _ => by simp only [verifyBase64, h]⟩
  | some b =>
    obtain ⟨c, h1, _, h3, h4⟩ := C138_verify password (.of b)
    exact ⟨c, h1, h3, fun K K' hk => by simpa only [verifyBase64, h] using h4 K K' hk⟩

/-- **C138 for `Hash`**: one key at most, from the password and what the random source delivered. -/
theorem C138_hash (rnd : Rand) (password : List UInt8) (sl : Int) :
    ∃ c : Call, c.password = password ∧ c.salt = (rnd 16).1 ∧ Moderate c ∧ AsksOnly (fun K => hashPw K rnd password sl) c := by
  have key : ∀ (prm : UInt8) (c : Call), saltLen prm = 16 → securityLevel sl = (prm, true) →
      (∀ K, ∃ f, alg K prm = some f ∧ f password (rnd 16).1 = .ret (c.ask K)) → AsksOnly (fun K => hashPw K rnd password sl) c := by
    intro prm c h1 h2 h3 K K' hk
    obtain ⟨f, e, ef⟩ := h3 K
    obtain ⟨f', e', ef'⟩ := h3 K'
    simp only [hashPw, h2, h1, e, e']
    cases hr : rnd 16 with
    | mk slt p =>
      rw [hr] at ef ef'
      obtain ⟨n, err⟩ := p
      simp only at ef ef' ⊢
      rw [ef, ef', hk]
  by_cases h : 1 ≤ sl ∧ sl ≤ 4
  · have hsl : sl = 1 ∨ sl = 2 ∨ sl = 3 ∨ sl = 4 := by omega
    have mk : ∀ (prm : UInt8) (a : Nat × Nat × Nat × Nat), params prm.toNat = some a → saltLen prm = 16 →
        securityLevel sl = (prm, true) → (∃ c : Call, c.password = password ∧ c.salt = (rnd 16).1 ∧ Moderate c ∧
          AsksOnly (fun K => hashPw K rnd password sl) c) := by
      intro prm a ha h1 h2
      obtain ⟨hm, hd⟩ := call_of ha password (rnd 16).1
      refine ⟨_, rfl, rfl, hm, key prm _ h1 h2 fun K => ?_⟩
      rcases alg_derive K prm with ⟨_, f, e, hf⟩ | hn
      · obtain ⟨k, e1, e2⟩ := hf password (rnd 16).1
        rw [hd K] at e2
        exact ⟨f, e, by rw [e1, Option.some.inj e2]⟩
      · have := hd K
        rw [hn.2] at this
        cases this
    rcases hsl with rfl | rfl | rfl | rfl
    · exact mk 0 _ rfl rfl rfl
    · exact mk 1 _ rfl rfl rfl
    · exact mk 2 _ rfl rfl rfl
    · exact mk 3 _ rfl rfl rfl
  · refine ⟨⟨password, (rnd 16).1, 20, 65536, 4, 32⟩, rfl, rfl,
      ⟨by dsimp only; omega, by dsimp only; omega, by dsimp only; omega, by dsimp only; omega, by dsimp only; omega, rfl⟩, fun K K' _ => ?_⟩
    simp only
    rw [C70_bad_level K rnd password sl h, C70_bad_level K' rnd password sl h]

/-- **C138** The password reaches the result through the derived key only: two passwords with the same key for the salt of
the record are treated alike. -/
theorem C138_password (K : Kdf) (p p' : List UInt8) (s : Slice)
    (h : ∀ slt t m th, slt <:+: s.bytes → K p slt t m th 32 = K p' slt t m th 32) : verify K p s = verify K p' s := by
  by_cases hr : ∃ prm slt hsh, IsRecord s.bytes prm slt hsh
  · obtain ⟨prm, slt, hsh, hr⟩ := hr
    have hin : slt <:+: s.bytes := by
      obtain ⟨tail, e, _⟩ := hr
      refine ⟨prm :: le64 (17 + slt.length) ++ le64 (17 + slt.length + hsh.length), hsh ++ tail, ?_⟩
      rw [e]
      simp [record]
    rw [verify_record K p hr, verify_record K p' hr]
    cases hp : params prm.toNat with
    | none => simp [derive, hp]
    | some a =>
      obtain ⟨hm, hd⟩ := call_of hp p slt
      obtain ⟨_, hd'⟩ := call_of hp p' slt
      rw [hd K, hd' K]
      have hl : a.2.2.2 = 32 := hm.keyLen
      simp only [Call.ask, hl]
      rw [h slt _ _ _ hin]
  · rw [verify_not K p hr, verify_not K p' hr]

/-- A record of the strongest algorithm: which key it asks for is what decides. -/
example : let s := Slice.of (record 0 [1, 2] [7])
    verify (fun _ _ _ _ _ _ => [7]) [5] s = .ret none ∧ verify (fun _ _ _ _ _ _ => [8]) [5] s = .ret (some .hashMismatch) ∧
    verify (fun _ _ t m th _ => if t = 20 ∧ m = 65536 ∧ th = 4 then [7] else [8]) [5] s = .ret none := by
  decide +kernel

/-- What is not moderate: no thread, five threads, too much memory, too little work, too much work, another length. -/
example : ¬ Moderate ⟨[], [], 20, 65536, 0, 32⟩ ∧ ¬ Moderate ⟨[], [], 20, 65536, 5, 32⟩ ∧ ¬ Moderate ⟨[], [], 2, 65537, 4, 32⟩ ∧
    ¬ Moderate ⟨[], [], 1, 65536, 4, 32⟩ ∧ ¬ Moderate ⟨[], [], 21, 65536, 4, 32⟩ ∧ ¬ Moderate ⟨[], [], 20, 65536, 4, 31⟩ := by
  refine ⟨fun h => ?_, fun h => ?_, fun h => ?_, fun h => ?_, fun h => ?_, fun h => ?_⟩
  · exact absurd h.threads (by decide)
  · exact absurd h.threads (by decide)
  · exact absurd h.memory (by decide)
  · exact absurd h.least (by decide)
  · exact absurd h.most (by decide)
  · exact absurd h.keyLen (by decide)

end Verif.PassCost
