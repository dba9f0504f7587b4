import Verif.Aes.Lemmas
/-!
# Properties of `aesx`
-/
namespace Verif.Aes
open Verif.Go

/-! An environment to show that the hypotheses can be met: the cipher reverses a block and adds the first byte of the key. -/

theorem exEnc_len (k b : Bytes) : (b.map (fun x => x + k.headD 0)).reverse.length = b.length := by simp

def exC : Cipher where
  enc k b := (b.map (fun x => x + k.headD 0)).reverse
  dec k b := b.reverse.map (fun x => x - k.headD 0)
  enc_len k b h := by simp [h]
  dec_len k b h := by simp [h]
  dec_enc k b _ := by
    rw [List.reverse_reverse, List.map_map]
    have : (fun x : UInt8 => x - k.headD 0) ∘ (fun x => x + k.headD 0) = id := by
      funext x
      simp
    rw [this, List.map_id]

def exEnv : Env where
  C := exC
  sha k := k
  ghash h c := (xorB h c ++ List.replicate 16 7).take 16
  ghash_len h c := by simp

/-- A source that always delivers this byte. -/
def exRand (x : UInt8) : Rand := ⟨fun n => some (List.replicate n x), fun n b h => by cases h; simp⟩

/-! ## C73 -/

/-- C73: whole blocks round-trip; the ciphertext is the drawn IV and as many bytes as the data. -/
theorem C73_round_trip (E : Env) (rnd : Rand) (iv data key : Bytes) (hr : rnd.read 16 = some iv) (h : data.length % 16 = 0) :
    ∃ c, encryptCBC E rnd data key = .ret (.ok (iv ++ c)) ∧ (iv ++ c).length = data.length + 16 ∧
      decryptCBC E (iv ++ c) key = .ret (.ok data) := by
  have hi := rnd.len 16 iv hr
  have hd : data.length = 16 * (data.length / 16) := by omega
  have hl := cbcEnc_length E.C (E.sha key) _ iv data hd hi
  refine ⟨cbcEnc E.C (E.sha key) iv data, ?_, ?_, ?_⟩
  · unfold encryptCBC
    rw [hr]
    simp only
    rw [if_neg (by omega)]
  · rw [List.length_append, hl, hi]; omega
  · unfold decryptCBC
    rw [if_neg (by rw [List.length_append]; omega), List.drop_left' hi, List.take_left' hi, if_neg (by omega), cbc_round E.C (E.sha key) _ iv data hd hi]

/-- C73: other lengths panic, on both sides; so does input too short for an IV. -/
theorem C73_ragged (E : Env) (data key : Bytes) :
    (∀ (rnd : Rand) (iv : Bytes), rnd.read 16 = some iv → data.length % 16 ≠ 0 → encryptCBC E rnd data key = .panic) ∧
    (data.length % 16 ≠ 0 → decryptCBC E data key = .panic) ∧ (data.length < 16 → decryptCBC E data key = .panic) := by
  refine ⟨?_, ?_, ?_⟩
  · intro rnd iv hr h
    unfold encryptCBC
    rw [hr]
    simp only
    rw [if_pos h]
  · intro h
    unfold decryptCBC
    split
    · rfl
    · rw [if_pos (by rw [List.length_drop]; omega)]
  · intro h
    unfold decryptCBC
    rw [if_pos h]

/-- C73: the first block of CBC is the cipher applied to data and IV, each further one to data and the ciphertext
block before it. -/
theorem C73_chain (E : Env) (rnd : Rand) (iv data key : Bytes) (hr : rnd.read 16 = some iv) (h : data.length % 16 = 0) :
    ∃ c, encryptCBC E rnd data key = .ret (.ok c) ∧ c.take 16 = iv ∧ ∀ i, 16 * i < data.length →
      (c.drop (16 * (i + 1))).take 16 = E.C.enc (E.sha key) (xorB ((data.drop (16 * i)).take 16) ((c.drop (16 * i)).take 16)) := by
  have hi := rnd.len 16 iv hr
  refine ⟨iv ++ cbcEnc E.C (E.sha key) iv data, ?_, List.take_left' hi, ?_⟩
  · unfold encryptCBC
    rw [hr]
    simp only
    rw [if_neg (by omega)]
  · have key : ∀ (k : Bytes) (i : Nat) (prev data : Bytes), prev.length = 16 → data.length % 16 = 0 → 16 * i < data.length →
        ((prev ++ cbcEnc E.C k prev data).drop (16 * (i + 1))).take 16 =
          E.C.enc k (xorB ((data.drop (16 * i)).take 16) (((prev ++ cbcEnc E.C k prev data).drop (16 * i)).take 16)) := by
      intro k i
      induction i with
      | zero =>
        intro prev data hp hm hl
        have ht : (data.take 16).length = 16 := by rw [List.length_take]; omega
        have hc := E.C.enc_len k (xorB (data.take 16) prev) (by rw [xorB_length]; omega)
        simp only [Nat.zero_add, Nat.mul_one, Nat.mul_zero, List.drop_zero]
        rw [List.drop_left' hp, List.take_left' hp, cbcEnc, if_pos (by omega)]
        simp only
        rw [List.take_left' hc]
      | succ i ih =>
        intro prev data hp hm hl
        have ht : (data.take 16).length = 16 := by rw [List.length_take]; omega
        have hc := E.C.enc_len k (xorB (data.take 16) prev) (by rw [xorB_length]; omega)
        have := ih (E.C.enc k (xorB (data.take 16) prev)) (data.drop 16) hc (by rw [List.length_drop]; omega) (by rw [List.length_drop]; omega)
        rw [List.drop_drop] at this
        have e : ∀ n, (prev ++ cbcEnc E.C k prev data).drop (16 * (n + 1)) =
            (E.C.enc k (xorB (data.take 16) prev) ++ cbcEnc E.C k (E.C.enc k (xorB (data.take 16) prev)) (data.drop 16)).drop (16 * n) := by
          intro n
          rw [show 16 * (n + 1) = 16 + 16 * n by omega, ← List.drop_drop, List.drop_left' hp]
          conv_lhs => rw [cbcEnc, if_pos (show 16 ≤ data.length by omega)]
        rw [e, e, this, show 16 * (i + 1) = 16 + 16 * i by omega]
    intro i hl
    exact key _ i iv data hi h hl

example : ∃ c, encryptCBC exEnv (exRand 3) (List.replicate 32 1) [9] = .ret (.ok c) ∧ c.length = 48 := by
  obtain ⟨c, h1, h2, _⟩ := C73_round_trip exEnv (exRand 3) _ (List.replicate 32 1) [9] rfl (by decide)
  exact ⟨_, h1, h2⟩

/-! ## C74 -/

/-- C74: all data round-trips; the ciphertext is the drawn IV and as many bytes as the data. -/
theorem C74_round_trip (E : Env) (rnd : Rand) (iv data key : Bytes) (hr : rnd.read 16 = some iv) :
    ∃ c, encryptCTR E rnd data key = .ret (.ok (iv ++ c)) ∧ (iv ++ c).length = data.length + 16 ∧
      decryptCTR E (iv ++ c) key = .ret (.ok data) := by
  have hi := rnd.len 16 iv hr
  obtain ⟨⟨hl, _⟩, h2⟩ := ctr_mode E.C (E.sha key) iv data hi
  refine ⟨ctrXor E.C (E.sha key) iv data, ?_, ?_, ?_⟩
  · unfold encryptCTR
    rw [hr]
  · rw [List.length_append, hl, hi]; omega
  · unfold decryptCTR
    rw [if_neg (by rw [List.length_append]; omega), List.drop_left' hi, List.take_left' hi, h2]

/-- C74: byte `n` of the ciphertext is byte `n` of the data combined with byte `n % 16` of the encrypted number
`iv + n / 16`, modulo 2^128. -/
theorem C74_counter_mode (E : Env) (rnd : Rand) (iv data key : Bytes) (hr : rnd.read 16 = some iv) :
    ∃ c, encryptCTR E rnd data key = .ret (.ok (iv ++ c)) ∧ IsCounterMode E.C (E.sha key) (ctrBlock iv) data c := by
  refine ⟨ctrXor E.C (E.sha key) iv data, ?_, (ctr_mode E.C (E.sha key) iv data (rnd.len 16 iv hr)).1⟩
  unfold encryptCTR
  rw [hr]

/-- When no IV can be drawn nothing is encrypted. -/
theorem C74_no_iv (E : Env) (rnd : Rand) (data key : Bytes) :
    (rnd.read 16 = none → encryptCTR E rnd data key = .ret (.error .rand) ∧ encryptCBC E rnd data key = .ret (.error .rand)) ∧
    (rnd.read 12 = none → encryptGCM E rnd data key = .ret (.error .rand)) := by
  refine ⟨fun h => ⟨?_, ?_⟩, fun h => ?_⟩
  · unfold encryptCTR; rw [h]
  · unfold encryptCBC; rw [h]
  · unfold encryptGCM; rw [h]

/-- The counter wraps around. -/
example : ctrBlock (List.replicate 16 255) 1 = List.replicate 16 0 := by decide
example : ∃ c, encryptCTR exEnv (exRand 255) (List.replicate 33 1) [9] = .ret (.ok c) ∧ c.length = 49 := by
  obtain ⟨c, h1, h2, _⟩ := C74_round_trip exEnv (exRand 255) _ (List.replicate 33 1) [9] rfl
  exact ⟨_, h1, h2⟩

/-! ## C75 -/

/-- The full claim about encryption. -/
def C75_full : Prop := ∀ (E : Env) (rnd : Rand) (nonce data key : Bytes), rnd.read 12 = some nonce →
  ∃ x, encryptGCM E rnd data key = .ret (.ok x) ∧ decryptGCM E x key = .ret (.ok data)

/-- What `EncryptGCM` returns: the drawn nonce, the data in counter mode and the tag. -/
theorem encryptGCM_eq (E : Env) (rnd : Rand) (nonce data key : Bytes) (hr : rnd.read 12 = some nonce) (h : data.length ≤ maxData) :
    encryptGCM E rnd data key = .ret (.ok (nonce ++ (gcmXor E.C (E.sha key) (incr32 (counter0 nonce)) data ++
      tag E (E.sha key) nonce (gcmXor E.C (E.sha key) (incr32 (counter0 nonce)) data)))) := by
  unfold encryptGCM aeadSeal
  rw [hr]
  simp only
  rw [if_neg (by omega)]
  rfl

theorem aeadOpen_ct (E : Env) (k nonce ct t : Bytes) (ht : t.length = 16) (hm : ct.length ≤ maxData) :
    aeadOpen E k nonce (ct ++ t) = if t = tag E k nonce ct then .ok (gcmXor E.C k (incr32 (counter0 nonce)) ct) else .error .open := by
  unfold aeadOpen
  rw [if_neg (by rw [List.length_append]; omega), if_neg (by rw [List.length_append]; omega)]
  have e : (ct ++ t).length - 16 = ct.length := by rw [List.length_append]; omega
  simp only [e, List.take_left, List.drop_left]

/-- C75 (partial): data of at most `(2^32-2)*16` bytes, about 64 GiB, round-trips, 28 bytes longer. Missing: larger
data, for which the code panics. -/
theorem C75_round_trip_partial (E : Env) (rnd : Rand) (nonce data key : Bytes) (hr : rnd.read 12 = some nonce) (h : data.length ≤ maxData) :
    ∃ x, encryptGCM E rnd data key = .ret (.ok x) ∧ x.length = data.length + 28 ∧ x.take 12 = nonce ∧ decryptGCM E x key = .ret (.ok data) := by
  have hn := rnd.len 12 nonce hr
  obtain ⟨⟨hl, _⟩, h2⟩ := gcm_mode E.C (E.sha key) nonce data hn
  refine ⟨_, encryptGCM_eq E rnd nonce data key hr h, ?_, List.take_left' hn, ?_⟩
  · rw [List.length_append, List.length_append, hn, hl, tag_length E _ _ _ hn]
    omega
  · unfold decryptGCM
    rw [if_neg (by rw [List.length_append]; omega), List.take_left' hn, List.drop_left' hn,
      aeadOpen_ct E _ nonce _ _ (tag_length E _ _ _ hn) (by omega), if_pos rfl, h2]

theorem C75_refuted : (∀ (E : Env) (rnd : Rand) (nonce data key : Bytes), rnd.read 12 = some nonce → maxData < data.length →
    encryptGCM E rnd data key = .panic) ∧ ¬ C75_full := by
  have key : ∀ (E : Env) (rnd : Rand) (nonce data key : Bytes), rnd.read 12 = some nonce → maxData < data.length →
      encryptGCM E rnd data key = .panic := by
    intro E rnd nonce data key hr h
    unfold encryptGCM aeadSeal
    rw [hr]
    simp only
    rw [if_pos h]
    rfl
  refine ⟨key, fun h => ?_⟩
  obtain ⟨x, hx, _⟩ := h exEnv (exRand 0) _ (List.replicate (maxData + 1) 0) [] rfl
  rw [key exEnv (exRand 0) _ (List.replicate (maxData + 1) 0) [] rfl (by rw [List.length_replicate]; omega)] at hx
  cases hx

/-- C75: `DecryptGCM` accepts exactly what `EncryptGCM` returns for some drawn nonce, and then gives the data that was
encrypted; everything else of at least 12 bytes gets the error and no data. -/
theorem C75_accepts_iff (E : Env) (x key data : Bytes) :
    decryptGCM E x key = .ret (.ok data) ↔
      ∃ (rnd : Rand) (nonce : Bytes), rnd.read 12 = some nonce ∧ data.length ≤ maxData ∧ encryptGCM E rnd data key = .ret (.ok x) := by
  constructor
  · intro h
    unfold decryptGCM at h
    split at h
    · cases h
    · rename_i hl
      have hn : (x.take 12).length = 12 := by rw [List.length_take]; omega
      simp only [Outcome.ret.injEq] at h
      obtain ⟨nonce, rest, hx, hn', hr'⟩ : ∃ nonce rest, x = nonce ++ rest ∧ nonce = x.take 12 ∧ rest = x.drop 12 :=
        ⟨_, _, (List.take_append_drop 12 x).symm, rfl, rfl⟩
      rw [← hn', ← hr'] at h
      rw [← hn'] at hn
      have h16 : ¬ rest.length < 16 := by
        intro hh
        unfold aeadOpen at h
        rw [if_pos hh] at h
        cases h
      have hmax : ¬ rest.length > maxData + 16 := by
        intro hh
        unfold aeadOpen at h
        rw [if_neg h16, if_pos hh] at h
        cases h
      have hs : rest = rest.take (rest.length - 16) ++ rest.drop (rest.length - 16) := (List.take_append_drop _ _).symm
      have hc : (rest.take (rest.length - 16)).length = rest.length - 16 := by rw [List.length_take]; omega
      have ht : (rest.drop (rest.length - 16)).length = 16 := by rw [List.length_drop]; omega
      generalize rest.take (rest.length - 16) = ct at *
      generalize rest.drop (rest.length - 16) = t at *
      rw [hs, aeadOpen_ct E _ nonce ct t ht (by omega)] at h
      split at h
      · rename_i e
        simp only [Except.ok.injEq] at h
        obtain ⟨⟨g1, _⟩, g2⟩ := gcm_mode E.C (E.sha key) nonce ct hn
        rw [h] at g1 g2
        refine ⟨⟨fun n => some (nonce.take n ++ List.replicate (n - 12) 0), fun n b hb => ?_⟩, nonce, ?_, by omega, ?_⟩
        · cases hb
          rw [List.length_append, List.length_take, List.length_replicate, hn]
          omega
        · simp only [Nat.sub_self, List.replicate_zero, List.append_nil, Option.some.injEq]
          exact List.take_of_length_le (by omega)
        · rw [encryptGCM_eq E _ nonce data key ?_ (by omega), g2, ← e, ← hs, ← hx]
          simp only [Nat.sub_self, List.replicate_zero, List.append_nil, Option.some.injEq]
          exact List.take_of_length_le (by omega)
      · cases h
  · rintro ⟨rnd, nonce, hr, hl, he⟩
    obtain ⟨x', g1, _, _, g4⟩ := C75_round_trip_partial E rnd nonce data key hr hl
    rw [g1] at he
    simp only [Outcome.ret.injEq, Except.ok.injEq] at he
    rw [← he]
    exact g4

/-- C75: a changed tag is always noticed. -/
theorem C75_tag (E : Env) (rnd : Rand) (nonce data key c t t' : Bytes) (hr : rnd.read 12 = some nonce) (hl : data.length ≤ maxData)
    (h : encryptGCM E rnd data key = .ret (.ok (nonce ++ (c ++ t)))) (ht : t.length = 16) (ht' : t'.length = 16) (hne : t' ≠ t) :
    decryptGCM E (nonce ++ (c ++ t')) key = .ret (.error .open) := by
  have hn := rnd.len 12 nonce hr
  rw [encryptGCM_eq E rnd nonce data key hr hl] at h
  simp only [Outcome.ret.injEq, Except.ok.injEq, List.append_cancel_left_eq] at h
  obtain ⟨h1, h2⟩ := List.append_inj' h (by rw [tag_length E _ _ _ hn, ht])
  have hc : c.length ≤ maxData := by rw [← h1, (gcm_mode E.C (E.sha key) nonce data hn).1.1]; exact hl
  unfold decryptGCM
  rw [if_neg (by rw [List.length_append]; omega), List.take_left' hn, List.drop_left' hn, aeadOpen_ct E _ nonce c t' ht' hc, if_neg]
  rw [← h1, h2]
  exact hne

/-- C75: the ciphertext is counter mode with the counter blocks of GCM. -/
theorem C75_counter_mode (E : Env) (rnd : Rand) (nonce data key : Bytes) (hr : rnd.read 12 = some nonce) (h : data.length ≤ maxData) :
    ∃ c t, encryptGCM E rnd data key = .ret (.ok (nonce ++ (c ++ t))) ∧ t.length = 16 ∧ IsCounterMode E.C (E.sha key) (gcmBlock nonce) data c :=
  ⟨_, _, encryptGCM_eq E rnd nonce data key hr h, tag_length E _ _ _ (rnd.len 12 nonce hr), (gcm_mode E.C _ nonce data (rnd.len 12 nonce hr)).1⟩

example : (exRand 4).read 12 = some (List.replicate 12 4) ∧ ([1, 2, 3] : Bytes).length ≤ maxData := ⟨rfl, by decide⟩
example : (List.replicate 16 1 : Bytes).length = 16 ∧ (List.replicate 16 1 : Bytes) ≠ List.replicate 16 2 := by decide

/-! ## C76 -/

/-- The full claim: all three return for all input. -/
def C76_full : Prop := ∀ (E : Env) (data key : Bytes),
  (∃ r, decryptCBC E data key = .ret r) ∧ (∃ r, decryptCTR E data key = .ret r) ∧ (∃ r, decryptGCM E data key = .ret r)

/-- C76: when exactly they panic. -/
theorem C76_panics_iff (E : Env) (data key : Bytes) :
    (decryptCBC E data key = .panic ↔ data.length < 16 ∨ data.length % 16 ≠ 0) ∧
    (decryptCTR E data key = .panic ↔ data.length < 16) ∧ (decryptGCM E data key = .panic ↔ data.length < 12) := by
  refine ⟨?_, ?_, ?_⟩
  · unfold decryptCBC
    rw [List.length_drop]
    split
    · simp_all
    · split
      · rename_i h1 h2
        exact ⟨fun _ => .inr (by omega), fun _ => rfl⟩
      · rename_i h1 h2
        exact ⟨fun h => (by cases h), fun h => by omega⟩
  · unfold decryptCTR
    split <;> simp_all
  · unfold decryptGCM
    split <;> simp_all

theorem C76_refuted : ¬ C76_full := by
  intro h
  obtain ⟨r, hr⟩ := (h exEnv [] []).2.2
  rw [((C76_panics_iff exEnv [] []).2.2).2 (by decide)] at hr
  cases hr

/-- C76 (partial): input that is long enough, and for CBC whole blocks, never panics; CBC and CTR then always return data,
GCM data or the error. Missing: short and ragged input. -/
theorem C76_long_partial (E : Env) (data key : Bytes) :
    (16 ≤ data.length → data.length % 16 = 0 → ∃ d, decryptCBC E data key = .ret (.ok d)) ∧
    (16 ≤ data.length → ∃ d, decryptCTR E data key = .ret (.ok d)) ∧
    (12 ≤ data.length → (∃ d, decryptGCM E data key = .ret (.ok d)) ∨ decryptGCM E data key = .ret (.error .open)) := by
  refine ⟨?_, ?_, ?_⟩
  · intro h1 h2
    unfold decryptCBC
    rw [if_neg (by omega), if_neg (by rw [List.length_drop]; omega)]
    exact ⟨_, rfl⟩
  · intro h
    unfold decryptCTR
    rw [if_neg (by omega)]
    exact ⟨_, rfl⟩
  · intro h
    unfold decryptGCM
    rw [if_neg (by omega)]
    unfold aeadOpen
    split
    · exact .inr rfl
    · split
      · exact .inr rfl
      · simp only
        split
        · exact .inl ⟨_, rfl⟩
        · exact .inr rfl

/-! ## C84 -/

/-- C84: within one message no counter block is used twice: CTR has 2^128 of them, and GCM, for as much data as
it takes, uses none twice and neither that of the tag nor that of the hash key. -/
theorem C84_counters (iv nonce : Bytes) :
    (∀ i j, i < 2 ^ 128 → j < 2 ^ 128 → ctrBlock iv i = ctrBlock iv j → i = j) ∧
    (∀ i j, 16 * i < maxData → 16 * j < maxData → gcmBlock nonce i = gcmBlock nonce j → i = j) ∧
    (nonce.length = 12 → ∀ i, 16 * i < maxData → gcmBlock nonce i ≠ counter0 nonce ∧ gcmBlock nonce i ≠ List.replicate 16 0) := by
  have hm : ∀ i, 16 * i < maxData → 2 + i < 2 ^ 32 := by unfold maxData; omega
  have e4 : (256 : Nat) ^ 4 = 2 ^ 32 := by norm_num
  refine ⟨?_, ?_, ?_⟩
  · intro i j hi hj h
    have e16 : (256 : Nat) ^ 16 = 2 ^ 128 := by norm_num
    have := be_inj (by rw [e16]; exact Nat.mod_lt _ (by norm_num)) (by rw [e16]; exact Nat.mod_lt _ (by norm_num)) h
    omega
  · intro i j hi hj h
    have gi := hm i hi
    have gj := hm j hj
    have := be_inj (by rw [e4]; exact Nat.mod_lt _ (by norm_num)) (by rw [e4]; exact Nat.mod_lt _ (by norm_num)) (List.append_cancel_left h)
    omega
  · intro hn i hi
    have gi := hm i hi
    unfold gcmBlock
    rw [Nat.mod_eq_of_lt gi]
    constructor
    · intro h
      have h' : be 4 (2 + i) = be 4 1 := List.append_cancel_left h
      have := be_inj (by omega) (by norm_num) h'
      omega
    · intro h
      rw [show List.replicate 16 (0 : UInt8) = List.replicate 12 0 ++ be 4 0 from rfl] at h
      have h' := (List.append_inj h (by rw [hn]; rfl)).2
      have := be_inj (by omega) (by norm_num) h'
      omega

/-- The claim that decryption notices changes, for CTR: false. -/
def C84_integrity_full : Prop := ∀ (E : Env) (x y key d d' : Bytes), decryptCTR E x key = .ret (.ok d) → y ≠ x → x.length = y.length →
  decryptCTR E y key ≠ .ret (.ok d')

/-- C84: changing bits of a CTR ciphertext changes the same bits of the data, and there is no error. -/
theorem C84_malleable (E : Env) (iv c m key d : Bytes) (hi : iv.length = 16) (hm : m.length = c.length)
    (h : decryptCTR E (iv ++ c) key = .ret (.ok d)) : decryptCTR E (iv ++ xorB c m) key = .ret (.ok (xorB d m)) := by
  unfold decryptCTR at h ⊢
  rw [if_neg (by rw [List.length_append]; omega), List.take_left' hi, List.drop_left' hi] at h
  rw [if_neg (by rw [List.length_append]; omega), List.take_left' hi, List.drop_left' hi]
  simp only [Outcome.ret.injEq, Except.ok.injEq] at h ⊢
  obtain ⟨g1, g2⟩ := (ctr_mode E.C (E.sha key) iv c hi).1
  rw [h] at g1 g2
  refine counterMode_unique (ctr_mode E.C (E.sha key) iv (xorB c m) hi).1 ⟨by rw [xorB_length, xorB_length, g1], ?_⟩
  intro n hn
  rw [xorB_length] at hn
  rw [xorB_getD (by omega) (by omega), xorB_getD (by omega) (by omega), g2 n (by omega)]
  rw [UInt8.xor_assoc, UInt8.xor_assoc, UInt8.xor_comm (m.getD n 0)]

theorem C84_integrity_refuted : ¬ C84_integrity_full := by
  intro h
  obtain ⟨c, _, h2, h3⟩ := C74_round_trip exEnv (exRand 0) _ [1] [] rfl
  have hc : c.length = 1 := by simpa using h2
  have h4 := C84_malleable exEnv (List.replicate 16 0) c [1] [] [1] rfl (by rw [hc]; rfl) h3
  refine h exEnv _ _ [] _ _ h3 ?_ ?_ h4
  · intro e
    have e := List.append_cancel_left e
    match c, hc with
    | [x], _ =>
      simp only [xorB, List.zipWith_cons_cons, List.zipWith_nil_left, List.cons.injEq, and_true] at e
      have : (1 : UInt8) = 0 := by
        have := congrArg (fun y => x ^^^ y) e
        simp only [← UInt8.xor_assoc, UInt8.xor_self, UInt8.zero_xor] at this
        exact this
      exact absurd this (by decide)
  · simp [xorB_length, hc]

example : ctrBlock (List.replicate 16 255) 0 ≠ ctrBlock (List.replicate 16 255) 1 := by decide

end Verif.Aes
