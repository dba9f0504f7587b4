import Verif.AesCbc.Spec
import Verif.Aes.Props
import Mathlib.Data.Finite.Defs
import Mathlib.Data.Set.Finite.List
/-!
# C116: `DecryptCBC` and messages that were changed

`DecryptCBC` (cbcx.go:26-38) has no means to notice a change. What a change does to the data is exact.
-/
namespace Verif.AesCbc
open Verif.Go Verif.Aes

/-- C116 in full: a changed message is not decrypted. It is false. -/
def C116_full : Prop := ∀ (E : Env) (x y key d d' : Bytes), decryptCBC E x key = .ret (.ok d) → y ≠ x → y.length = x.length →
  decryptCBC E y key ≠ .ret (.ok d')

theorem blk_length {x : Bytes} {i : Nat} (h : 16 * (i + 1) ≤ x.length) : (blk x i).length = 16 := by
  unfold blk; rw [List.length_take, List.length_drop]; omega

theorem blk_succ (x : Bytes) (i : Nat) : blk x (i + 1) = blk (x.drop 16) i := by
  unfold blk; rw [List.drop_drop, show 16 * (i + 1) = 16 + 16 * i by omega]

theorem blk_zero (x : Bytes) : blk x 0 = x.take 16 := by unfold blk; rw [Nat.mul_zero, List.drop_zero]

theorem cbcDec_blocks (C : Cipher) (k : Bytes) : ∀ (n : Nat) (prev data : Bytes), data.length = 16 * n → prev.length = 16 →
    (cbcDec C k prev data).length = data.length ∧
    ∀ i, i < n → blk (cbcDec C k prev data) i = xorB (C.dec k (blk (prev ++ data) (i + 1))) (blk (prev ++ data) i) := by
  intro n
  induction n with
  | zero =>
    intro prev data h _
    rw [cbcDec, if_neg (by omega)]
    exact ⟨by simp; omega, fun i hi => absurd hi (by omega)⟩
  | succ n ih =>
    intro prev data h hp
    have ht : (data.take 16).length = 16 := by rw [List.length_take]; omega
    have hd := C.dec_len k _ ht
    have hx : (xorB (C.dec k (data.take 16)) prev).length = 16 := by rw [xorB_length]; omega
    obtain ⟨i1, i2⟩ := ih (data.take 16) (data.drop 16) (by rw [List.length_drop]; omega) ht
    rw [cbcDec, if_pos (by omega)]
    refine ⟨by rw [List.length_append, hx, i1, List.length_drop]; omega, fun i hi => ?_⟩
    rw [blk_succ, List.drop_left' hp]
    cases i with
    | zero => rw [blk_zero, blk_zero, blk_zero, List.take_left' hx, List.take_left' hp]
    | succ i =>
      rw [blk_succ, List.drop_left' hx, i2 i (by omega), List.take_append_drop, blk_succ (prev ++ data), List.drop_left' hp]

/-- **C116, decryption block by block**: every message of this form is decrypted, whoever wrote it; block `i` of the data is the cipher's
inverse of one block of the message, combined with the block before it. -/
theorem C116_blocks (E : Env) (x key : Bytes) (h : IsMessage x) : ∃ p, decryptCBC E x key = .ret (.ok p) ∧ p.length = x.length - 16 ∧
    ∀ i, 16 * i < p.length → blk p i = xorB (E.C.dec (E.sha key) (blk x (i + 1))) (blk x i) := by
  obtain ⟨h1, h2⟩ := h
  have ht : (x.take 16).length = 16 := by rw [List.length_take]; omega
  have hd : (x.drop 16).length = 16 * (x.length / 16 - 1) := by rw [List.length_drop]; omega
  obtain ⟨i1, i2⟩ := cbcDec_blocks E.C (E.sha key) _ (x.take 16) (x.drop 16) hd ht
  refine ⟨cbcDec E.C (E.sha key) (x.take 16) (x.drop 16), ?_, by rw [i1, List.length_drop], fun i hi => ?_⟩
  · unfold decryptCBC
    rw [if_neg (by omega), if_neg (by rw [hd]; omega)]
  · rw [i1, List.length_drop] at hi
    rw [i2 i (by omega), List.take_append_drop]

theorem blk_ext {n : Nat} {p q : Bytes} (hp : p.length = 16 * n) (hq : q.length = 16 * n) (h : ∀ i, i < n → blk p i = blk q i) : p = q := by
  induction n generalizing p q with
  | zero => rw [List.length_eq_zero_iff.1 hp, List.length_eq_zero_iff.1 hq]
  | succ n ih =>
    have h0 := h 0 (by omega)
    rw [blk_zero, blk_zero] at h0
    have := ih (p := p.drop 16) (q := q.drop 16) (by rw [List.length_drop]; omega) (by rw [List.length_drop]; omega)
      (fun i hi => by rw [← blk_succ, ← blk_succ]; exact h (i + 1) (by omega))
    rw [← List.take_append_drop 16 p, ← List.take_append_drop 16 q, h0, this]

theorem xorB_comm3 : ∀ a b c : Bytes, xorB a (xorB b c) = xorB (xorB a b) c
  | [], _, _ => by simp [xorB]
  | _ :: _, [], _ => by simp [xorB]
  | _ :: _, _ :: _, [] => by simp [xorB]
  | x :: a, y :: b, z :: c => by
    have := xorB_comm3 a b c
    simp only [xorB, List.zipWith_cons_cons, List.cons.injEq] at this ⊢
    exact ⟨(UInt8.xor_assoc _ _ _).symm, this⟩

/-- **C116, the damage is confined and aimed** (partial: the full claim is that a changed message is refused): let two messages of the same length be
decrypted. Where two neighbouring blocks of the messages agree, so does the block of the data that belongs to them. Where the later one
agrees and the earlier one differs by `m`, the data differs by `m`. -/
theorem C116_partial (E : Env) (x y key p q : Bytes) (hl : y.length = x.length) (hp : decryptCBC E x key = .ret (.ok p))
    (hq : decryptCBC E y key = .ret (.ok q)) : q.length = p.length ∧ ∀ i, 16 * i < p.length → blk y (i + 1) = blk x (i + 1) →
      (blk y i = blk x i → blk q i = blk p i) ∧ ∀ m, blk y i = xorB (blk x i) m → blk q i = xorB (blk p i) m := by
  have hx : IsMessage x := by
    unfold decryptCBC at hp
    split at hp
    · cases hp
    · split at hp
      · cases hp
      · rename_i h1 h2
        rw [List.length_drop] at h2
        exact ⟨by omega, by omega⟩
  obtain ⟨p', e1, l1, b1⟩ := C116_blocks E x key hx
  obtain ⟨q', e2, l2, b2⟩ := C116_blocks E y key ⟨by rw [hl]; exact hx.1, by rw [hl]; exact hx.2⟩
  rw [e1] at hp; cases hp
  rw [e2] at hq; cases hq
  refine ⟨by omega, fun i hi hb => ⟨fun he => ?_, fun m he => ?_⟩⟩
  · rw [b1 i hi, b2 i (by omega), hb, he]
  · rw [b1 i hi, b2 i (by omega), hb, he, xorB_comm3]

theorem dec_inj (C : Cipher) (k : Bytes) {a b : Bytes} (ha : a.length = 16) (hb : b.length = 16) (h : C.dec k a = C.dec k b) : a = b := by
  let B := {l : Bytes // l.length = 16}
  have : Finite UInt8 := Finite.of_injective UInt8.toFin (fun _ _ h => UInt8.toFin_inj.1 h)
  have : Finite B := List.finite_length_eq UInt8 16
  let f : B → B := fun l => ⟨C.enc k l.1, C.enc_len k l.1 l.2⟩
  have hf : Function.Injective f := by
    intro l l' e
    have e := congrArg Subtype.val e
    have := congrArg (C.dec k) e
    simp only [f, C.dec_enc k _ l.2, C.dec_enc k _ l'.2] at this
    exact Subtype.ext this
  have hs := Finite.surjective_of_injective hf
  obtain ⟨⟨a', ha'⟩, ea⟩ := hs ⟨a, ha⟩
  obtain ⟨⟨b', hb'⟩, eb⟩ := hs ⟨b, hb⟩
  have ea := congrArg Subtype.val ea
  have eb := congrArg Subtype.val eb
  simp only [f] at ea eb
  rw [← ea, ← eb, C.dec_enc k _ ha', C.dec_enc k _ hb'] at h
  rw [← ea, ← eb, h]

/-- **C116, no change goes without effect** while the IV is kept: two messages with the same IV that decrypt to the same data are the same. -/
theorem C116_same_iv (E : Env) (x y key p : Bytes) (hl : y.length = x.length) (hp : decryptCBC E x key = .ret (.ok p))
    (hq : decryptCBC E y key = .ret (.ok p)) (h0 : y.take 16 = x.take 16) : y = x := by
  have hx : IsMessage x := by
    unfold decryptCBC at hp
    split at hp
    · cases hp
    · split at hp
      · cases hp
      · rename_i h1 h2
        rw [List.length_drop] at h2
        exact ⟨by omega, by omega⟩
  obtain ⟨hx1, hx2⟩ := hx
  obtain ⟨p', e1, l1, b1⟩ := C116_blocks E x key ⟨hx1, hx2⟩
  obtain ⟨q', e2, l2, b2⟩ := C116_blocks E y key ⟨by omega, by omega⟩
  rw [e1] at hp; cases hp
  rw [e2] at hq; cases hq
  refine blk_ext (n := x.length / 16) (by omega) (by omega) (fun i hi => ?_)
  induction i with
  | zero => rw [blk_zero, blk_zero, h0]
  | succ i ih =>
    have a1 := b1 i (by omega)
    have a2 := b2 i (by omega)
    rw [a2, ih (by omega)] at a1
    have g1 := blk_length (x := x) (i := i) (by omega)
    have g2 := blk_length (x := x) (i := i + 1) (by omega)
    have g3 := blk_length (x := y) (i := i + 1) (by omega)
    have d2 := E.C.dec_len (E.sha key) _ g2
    have d3 := E.C.dec_len (E.sha key) _ g3
    exact dec_inj E.C (E.sha key) g3 g2 (xorB_inj (by omega) (by omega) a1)

theorem xorB_ne {a m : Bytes} (h : m.length = a.length) (hm : m ≠ List.replicate a.length 0) : xorB a m ≠ a := by
  induction a generalizing m with
  | nil => simp at h; simp [h] at hm
  | cons x a ih =>
    cases m with
    | nil => simp at h
    | cons y m =>
      intro e
      simp only [xorB, List.zipWith_cons_cons, List.cons.injEq] at e
      have hy : y = 0 := by
        have := congrArg (fun z => x ^^^ z) e.1
        simpa [← UInt8.xor_assoc] using this
      refine ih (m := m) (by simpa using h) (fun hm' => hm ?_) e.2
      rw [hy, hm']; rfl

/-- **C116, how it fails**: whoever can change a message changes the first block of its data as they like, without the key and without an error. -/
theorem C116_any_change (E : Env) (rnd : Rand) (iv data key m : Bytes) (hr : rnd.read 16 = some iv) (h : data.length % 16 = 0) (hd : 16 ≤ data.length)
    (hm : m.length = 16) (hm0 : m ≠ List.replicate 16 0) : ∃ c, encryptCBC E rnd data key = .ret (.ok (iv ++ c)) ∧ xorB iv m ++ c ≠ iv ++ c ∧
      decryptCBC E (xorB iv m ++ c) key = .ret (.ok (xorB (data.take 16) m ++ data.drop 16)) := by
  obtain ⟨c, e1, e2, e3⟩ := C73_round_trip E rnd iv data key hr h
  have hi := rnd.len 16 iv hr
  have hxi : (xorB iv m).length = 16 := by rw [xorB_length]; omega
  rw [List.length_append] at e2
  refine ⟨c, e1, fun e => ?_, ?_⟩
  · exact xorB_ne (by omega) (by rw [hi]; exact hm0) (List.append_cancel_right e)
  · obtain ⟨q, f1, f2, _⟩ := C116_blocks E (xorB iv m ++ c) key ⟨by rw [List.length_append]; omega, by rw [List.length_append]; omega⟩
    obtain ⟨g1, g2⟩ := C116_partial E (iv ++ c) (xorB iv m ++ c) key data q (by rw [List.length_append, List.length_append]; omega) e3 f1
    rw [f1]
    have ht : (xorB (data.take 16) m).length = 16 := by rw [xorB_length, List.length_take]; omega
    have hblk : ∀ j, blk (xorB iv m ++ c) (j + 1) = blk (iv ++ c) (j + 1) := by
      intro j; rw [blk_succ, blk_succ, List.drop_left' hxi, List.drop_left' hi]
    have : q = xorB (data.take 16) m ++ data.drop 16 := by
      refine blk_ext (n := data.length / 16) (by omega) (by rw [List.length_append, ht, List.length_drop]; omega) (fun i hlt => ?_)
      obtain ⟨k1, k2⟩ := g2 i (by omega) (hblk i)
      cases i with
      | zero =>
        rw [k2 m (by rw [blk_zero, blk_zero, List.take_left' hxi, List.take_left' hi]), blk_zero, blk_zero, List.take_left' ht]
      | succ i => rw [k1 (hblk i), blk_succ, blk_succ, List.drop_left' ht]
    rw [this]

/-- **C116 is false.** -/
theorem C116_refuted : ¬ C116_full := by
  intro hf
  obtain ⟨c, h1, h2, h3⟩ := C116_any_change exEnv (exRand 0) _ (List.replicate 16 5) [1] (List.replicate 16 1) rfl (by decide) (by decide) (by decide) (by decide)
  obtain ⟨c', e1, _, e3⟩ := C73_round_trip exEnv (exRand 0) _ (List.replicate 16 5) [1] rfl (by decide)
  rw [h1] at e1
  have : c = c' := by simpa using e1
  subst this
  exact hf exEnv _ _ [1] _ _ e3 h2 (by simp [xorB]) h3

/-- A message of two blocks after the IV whose first is changed: the first block of the data is lost, the second changed as wanted. -/
example : ∃ p q, decryptCBC exEnv (List.replicate 48 0) [1] = .ret (.ok p) ∧
    decryptCBC exEnv (List.replicate 16 0 ++ List.replicate 16 8 ++ List.replicate 16 0) [1] = .ret (.ok q) ∧
    blk q 1 = xorB (blk p 1) (List.replicate 16 8) := by
  obtain ⟨p, e1, l1, _⟩ := C116_blocks exEnv (List.replicate 48 0) [1] (by unfold IsMessage; decide)
  obtain ⟨q, e2, l2, _⟩ := C116_blocks exEnv (List.replicate 16 0 ++ List.replicate 16 8 ++ List.replicate 16 0) [1] (by unfold IsMessage; decide)
  exact ⟨p, q, e1, e2, (((C116_partial _ _ _ _ _ _ (by decide) e1 e2).2 1 (by rw [l1]; decide) (by decide)).2 _ (by decide))⟩

end Verif.AesCbc
