import Verif.Aes.Spec
/-!
# Lemmas about the modes
-/
namespace Verif.Aes
open Verif.Go

theorem xorB_length (a b : Bytes) : (xorB a b).length = min a.length b.length := by simp [xorB]

theorem xorB_xorB : ∀ {a b : Bytes}, a.length ≤ b.length → xorB (xorB a b) b = a
  | [], _, _ => by simp [xorB]
  | _ :: _, [], h => by simp at h
  | x :: a, y :: b, h => by
    have := xorB_xorB (a := a) (b := b) (by simpa using h)
    simp only [xorB, List.zipWith_cons_cons] at this ⊢
    rw [this, UInt8.xor_assoc, UInt8.xor_self, UInt8.xor_zero]

theorem xorB_inj {a b c : Bytes} (ha : a.length ≤ c.length) (hb : b.length ≤ c.length) (h : xorB a c = xorB b c) : a = b := by
  rw [← xorB_xorB ha, h, xorB_xorB hb]

theorem xorB_getD : ∀ {a b : Bytes} {n : Nat}, n < a.length → n < b.length → (xorB a b).getD n 0 = a.getD n 0 ^^^ b.getD n 0
  | [], _, _, h, _ => by simp at h
  | _ :: _, [], _, _, h => by simp at h
  | x :: a, y :: b, 0, _, _ => by simp [xorB]
  | x :: a, y :: b, n + 1, h1, h2 => by
    have := xorB_getD (a := a) (b := b) (n := n) (by simpa using h1) (by simpa using h2)
    simpa [xorB] using this

theorem getD_left {a b : Bytes} {n : Nat} (h : n < a.length) : (a ++ b).getD n 0 = a.getD n 0 := by
  simp only [List.getD_eq_getElem?_getD, List.getElem?_append_left h]

theorem getD_right {a b : Bytes} {n : Nat} (h : a.length ≤ n) : (a ++ b).getD n 0 = b.getD (n - a.length) 0 := by
  simp only [List.getD_eq_getElem?_getD, List.getElem?_append_right h]

/-! ## CBC -/

theorem cbcEnc_length (C : Cipher) (k : Bytes) : ∀ (m : Nat) (prev data : Bytes), data.length = 16 * m → prev.length = 16 →
    (cbcEnc C k prev data).length = 16 * m
  | 0, prev, data, h, _ => by
    rw [cbcEnc, if_neg (by omega)]; rfl
  | m + 1, prev, data, h, hp => by
    rw [cbcEnc, if_pos (by omega)]
    have hx : (xorB (data.take 16) prev).length = 16 := by rw [xorB_length, List.length_take]; omega
    have hc := C.enc_len k _ hx
    simp only [List.length_append, hc]
    rw [cbcEnc_length C k m _ _ (by simp; omega) hc]
    omega

theorem cbc_round (C : Cipher) (k : Bytes) : ∀ (m : Nat) (prev data : Bytes), data.length = 16 * m → prev.length = 16 →
    cbcDec C k prev (cbcEnc C k prev data) = data
  | 0, prev, data, h, _ => by
    have : data = [] := List.length_eq_zero_iff.1 (by omega)
    subst this
    rw [cbcEnc, if_neg (by simp), cbcDec, if_neg (by simp)]
  | m + 1, prev, data, h, hp => by
    have ht : (data.take 16).length = 16 := by rw [List.length_take]; omega
    have hx : (xorB (data.take 16) prev).length = 16 := by rw [xorB_length]; omega
    have hc := C.enc_len k _ hx
    rw [cbcEnc, if_pos (by omega)]
    simp only
    generalize hg : C.enc k (xorB (data.take 16) prev) = c at *
    rw [cbcDec, if_pos (by simp; omega)]
    rw [List.take_left' hc, List.drop_left' hc, cbc_round C k m c (data.drop 16) (by simp; omega) hc, ← hg, C.dec_enc k _ hx,
      xorB_xorB (by omega), List.take_append_drop]

/-! ## Counters -/

theorem num_snoc (l : Bytes) (x : UInt8) : num (l ++ [x]) = num l * 256 + x.toNat := by
  simp [num, List.foldl_append]

theorem be_length (w v : Nat) : (be w v).length = w := by
  induction w generalizing v with
  | zero => rfl
  | succ w ih => simp [be, ih]

theorem num_be (w v : Nat) : num (be w v) = v % 256 ^ w := by
  induction w generalizing v with
  | zero => simp [be, num, Nat.mod_one]
  | succ w ih =>
    have e : (256 : Nat) ^ (w + 1) = 256 * 256 ^ w := by rw [Nat.pow_succ, Nat.mul_comm]
    rw [be, num_snoc, ih, UInt8.toNat_ofNat', Nat.mod_eq_of_lt (a := v % 256) (by omega), e, Nat.mod_mul]
    omega

theorem be_num (l : Bytes) : be l.length (num l) = l := by
  induction l using List.reverseRecOn with
  | nil => rfl
  | append_singleton l x ih =>
    have hx := x.toNat_lt
    rw [List.length_append, List.length_singleton, be, num_snoc, show (num l * 256 + x.toNat) / 256 = num l by omega, ih,
      show (num l * 256 + x.toNat) % 256 = x.toNat by omega, UInt8.ofNat_toNat]

theorem num_lt (l : Bytes) : num l < 256 ^ l.length := by
  have := num_be l.length (num l)
  rw [be_num] at this
  rw [this]
  exact Nat.mod_lt _ (Nat.pow_pos (by decide))

theorem incr_length (l : Bytes) : (incr l).length = l.length := by
  have : ∀ l, (incrLE l).length = l.length := by
    intro l
    induction l with
    | nil => rfl
    | cons b t ih => rw [incrLE]; split <;> simp [ih]
  simp [incr, this]

theorem incr_snoc (l : Bytes) (x : UInt8) : incr (l ++ [x]) = if x + 1 ≠ 0 then l ++ [x + 1] else incr l ++ [0] := by
  unfold incr
  rw [List.reverse_append, List.reverse_singleton, List.singleton_append, incrLE]
  split <;> simp

theorem incr_eq (l : Bytes) : incr l = be l.length (num l + 1) := by
  induction l using List.reverseRecOn with
  | nil => rfl
  | append_singleton l x ih =>
    have hx := x.toNat_lt
    rw [incr_snoc, List.length_append, List.length_singleton, be, num_snoc]
    have ha : (x + 1).toNat = (x.toNat + 1) % 256 := by rw [UInt8.toNat_add]; rfl
    split
    · rename_i h
      have hne : x.toNat ≠ 255 := by
        intro he
        apply h
        apply UInt8.toNat_inj.1
        rw [ha, he]
        rfl
      rw [show (num l * 256 + x.toNat + 1) / 256 = num l by omega, be_num, show (num l * 256 + x.toNat + 1) % 256 = x.toNat + 1 by omega]
      congr 2
    · rename_i h
      simp only [ne_eq, not_not] at h
      have he : x.toNat = 255 := by
        rw [h] at ha
        have : (0 : UInt8).toNat = 0 := rfl
        omega
      rw [show (num l * 256 + x.toNat + 1) / 256 = num l + 1 by omega, ← ih, show (num l * 256 + x.toNat + 1) % 256 = 0 by omega]
      rfl

theorem be_mod (w v : Nat) : be w (v % 256 ^ w) = be w v := by
  have h1 := be_num (be w v)
  rw [be_length, num_be] at h1
  exact h1

theorem incr_be (w v : Nat) : incr (be w v) = be w (v + 1) := by
  rw [incr_eq, be_length, num_be, ← be_mod w (v % 256 ^ w + 1), Nat.mod_add_mod, be_mod]

theorem be_inj {w v v' : Nat} (h : v < 256 ^ w) (h' : v' < 256 ^ w) (e : be w v = be w v') : v = v' := by
  have := congrArg num e
  rwa [num_be, num_be, Nat.mod_eq_of_lt h, Nat.mod_eq_of_lt h'] at this

/-! ## Counter mode -/

/-- One lemma for the two counter modes. -/
theorem counterMode (C : Cipher) (k : Bytes) (inc : Bytes → Bytes) (X : Bytes → Bytes → Bytes)
    (hX : ∀ ctr data, X ctr data = if data = [] then [] else xorB (data.take 16) (C.enc k ctr) ++ X (inc ctr) (data.drop 16))
    (hinc : ∀ c : Bytes, c.length = 16 → (inc c).length = 16) : ∀ (m : Nat) (ctr data : Bytes), data.length ≤ m → ctr.length = 16 →
      IsCounterMode C k (fun i => inc^[i] ctr) data (X ctr data) ∧ X ctr (X ctr data) = data
  | 0, ctr, data, h, hc => by
    have : data = [] := List.length_eq_zero_iff.1 (by omega)
    subst this
    rw [hX ctr [], if_pos rfl, hX ctr [], if_pos rfl]
    exact ⟨⟨rfl, fun n hn => by simp at hn⟩, rfl⟩
  | m + 1, ctr, data, h, hc => by
    by_cases hd : data = []
    · subst hd
      rw [hX ctr [], if_pos rfl, hX ctr [], if_pos rfl]
      exact ⟨⟨rfl, fun n hn => by simp at hn⟩, rfl⟩
    · have hl := List.length_pos_iff.2 hd
      obtain ⟨⟨i1, i2⟩, i3⟩ := counterMode C k inc X hX hinc m (inc ctr) (data.drop 16) (by simp; omega) (hinc ctr hc)
      have he := C.enc_len k ctr hc
      have ht : (data.take 16).length = min 16 data.length := List.length_take
      have hx : (xorB (data.take 16) (C.enc k ctr)).length = min 16 data.length := by rw [xorB_length, ht, he]; omega
      have hxd : X ctr data = xorB (data.take 16) (C.enc k ctr) ++ X (inc ctr) (data.drop 16) := by rw [hX, if_neg hd]
      have hlen : (X ctr data).length = data.length := by
        rw [hxd, List.length_append, hx, i1, List.length_drop]; omega
      refine ⟨⟨hlen, ?_⟩, ?_⟩
      · intro n hn
        rw [hxd]
        by_cases h16 : n < 16
        · rw [getD_left (by rw [hx]; omega), xorB_getD (by rw [ht]; omega) (by omega),
            show n / 16 = 0 by omega, show n % 16 = n by omega]
          simp [List.getD_eq_getElem?_getD, h16]
        · rw [getD_right (by rw [hx]; omega), hx, show min 16 data.length = 16 by omega,
            i2 (n - 16) (by rw [List.length_drop]; omega)]
          simp only
          rw [← Function.iterate_succ_apply, show ((n - 16) / 16).succ = n / 16 by omega, show (n - 16) % 16 = n % 16 by omega]
          congr 1
          simp only [List.getD_eq_getElem?_getD, List.getElem?_drop]
          rw [show 16 + (n - 16) = n by omega]
      · have hne : X ctr data ≠ [] := by
          intro e
          rw [e] at hlen
          simp at hlen
          omega
        rw [hX ctr (X ctr data), if_neg hne]
        by_cases h16 : 16 ≤ data.length
        · have e1 : (X ctr data).take 16 = xorB (data.take 16) (C.enc k ctr) := by
            rw [hxd, List.take_left' (by omega)]
          have e2 : (X ctr data).drop 16 = X (inc ctr) (data.drop 16) := by
            rw [hxd, List.drop_left' (by omega)]
          rw [e1, e2, i3, xorB_xorB (by rw [ht, he]; omega), List.take_append_drop]
        · have e0 : data.drop 16 = [] := List.drop_eq_nil_of_le (by omega)
          have e1 : X (inc ctr) [] = [] := by rw [hX, if_pos rfl]
          have e2 : (X ctr data).take 16 = xorB (data.take 16) (C.enc k ctr) := by
            rw [hxd, e0, e1, List.append_nil, List.take_of_length_le (by omega)]
          have e3 : (X ctr data).drop 16 = [] := List.drop_eq_nil_of_le (by omega)
          rw [e2, e3, e1, xorB_xorB (by rw [ht, he]; omega), List.append_nil, List.take_of_length_le (by omega)]

theorem incr_iter (iv : Bytes) (h : iv.length = 16) (i : Nat) : incr^[i] iv = ctrBlock iv i := by
  unfold ctrBlock
  have e : (2 : Nat) ^ 128 = 256 ^ 16 := by norm_num
  rw [e, be_mod]
  induction i with
  | zero => rw [Function.iterate_zero, id, Nat.add_zero, ← h, be_num]
  | succ i ih => rw [Function.iterate_succ_apply', ih, incr_be]; rfl

theorem incr32_length {c : Bytes} (h : c.length = 16) : (incr32 c).length = 16 := by
  simp [incr32, incr_length, h]

theorem incr32_iter (nonce : Bytes) (h : nonce.length = 12) (i : Nat) : incr32^[i] (incr32 (counter0 nonce)) = gcmBlock nonce i := by
  unfold gcmBlock
  have e : (2 : Nat) ^ 32 = 256 ^ 4 := by norm_num
  rw [e, be_mod]
  have st : ∀ v, incr32 (nonce ++ be 4 v) = nonce ++ be 4 (v + 1) := by
    intro v
    unfold incr32
    rw [List.take_left' h, List.drop_left' h, incr_be]
  induction i with
  | zero =>
    have : counter0 nonce = nonce ++ be 4 1 := rfl
    rw [Function.iterate_zero, id, this, st]
  | succ i ih => rw [Function.iterate_succ_apply', ih, st]; rfl

theorem ctr_mode (C : Cipher) (k iv data : Bytes) (h : iv.length = 16) :
    IsCounterMode C k (ctrBlock iv) data (ctrXor C k iv data) ∧ ctrXor C k iv (ctrXor C k iv data) = data := by
  have := counterMode C k incr (ctrXor C k) (fun ctr data => by rw [ctrXor]) (fun c hc => by rw [incr_length, hc]) _ iv data (Nat.le_refl _) h
  simp only [funext (incr_iter iv h)] at this
  exact this

theorem gcm_mode (C : Cipher) (k nonce data : Bytes) (h : nonce.length = 12) :
    IsCounterMode C k (gcmBlock nonce) data (gcmXor C k (incr32 (counter0 nonce)) data) ∧
    gcmXor C k (incr32 (counter0 nonce)) (gcmXor C k (incr32 (counter0 nonce)) data) = data := by
  have := counterMode C k incr32 (gcmXor C k) (fun ctr data => by rw [gcmXor]) (fun c hc => incr32_length hc) _ (incr32 (counter0 nonce)) data
    (Nat.le_refl _) (incr32_length (by simp [counter0, h]))
  simp only [funext (incr32_iter nonce h)] at this
  exact this

theorem tag_length (E : Env) (k nonce ct : Bytes) (h : nonce.length = 12) : (tag E k nonce ct).length = 16 := by
  rw [tag, xorB_length, E.ghash_len, E.C.enc_len k _ (by simp [counter0, h])]
  rfl

theorem counterMode_unique {C : Cipher} {k : Bytes} {blk : Nat → Bytes} {data out out' : Bytes} (h : IsCounterMode C k blk data out)
    (h' : IsCounterMode C k blk data out') : out = out' := by
  apply List.ext_getElem (by rw [h.1, h'.1])
  intro n h1 h2
  have e1 := h.2 n (by rw [← h.1]; exact h1)
  have e2 := h'.2 n (by rw [← h.1]; exact h1)
  rw [← e2] at e1
  simpa [List.getD_eq_getElem?_getD, h1, h2] using e1

end Verif.Aes
