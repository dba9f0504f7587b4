import Verif.PassHash.Lemmas
/-!
# Lemmas about base64
-/
namespace Verif.PassHash
open Verif.Go

set_option maxRecDepth 20000 in
theorem sextet_all : ∀ n < 256, decChar (UInt8.ofNat n) = sextet (UInt8.ofNat n) := by decide

theorem decChar_eq (c : UInt8) : decChar c = sextet c := by
  have := sextet_all c.toNat c.toNat_lt
  rwa [UInt8.ofNat_toNat] at this

set_option maxRecDepth 20000 in
theorem sextet_enc_lt : ∀ v < 64, sextet (encChar v) = some v := by decide

theorem sextet_enc (v : Nat) : sextet (encChar v) = some (v % 64) := by
  have := sextet_enc_lt (v % 64) (by omega)
  unfold encChar at this ⊢
  rwa [Nat.mod_mod] at this

set_option maxRecDepth 20000 in
theorem enc_sextet_all : ∀ n < 256, (sextet (UInt8.ofNat n)).all (fun v => encChar v == UInt8.ofNat n && decide (v < 64)) = true := by decide

theorem enc_sextet {c : UInt8} {v : Nat} (h : sextet c = some v) : encChar v = c ∧ v < 64 := by
  have := enc_sextet_all c.toNat c.toNat_lt
  rw [UInt8.ofNat_toNat, h] at this
  simpa using this

theorem dec_enc (v : Nat) : decChar (encChar v) = some (v % 64) := by rw [decChar_eq, sextet_enc]

theorem encode_alphabet : ∀ (b : List UInt8), ∀ c ∈ encode64 b, (sextet c).isSome = true
  | a :: b :: d :: t => by
    intro c hc
    simp only [encode64, List.mem_cons] at hc
    rcases hc with rfl | rfl | rfl | rfl | hc
    · rw [sextet_enc]; rfl
    · rw [sextet_enc]; rfl
    · rw [sextet_enc]; rfl
    · rw [sextet_enc]; rfl
    · exact encode_alphabet t c hc
  | [a, b] => by
    intro c hc
    simp only [encode64, List.mem_cons, List.not_mem_nil, or_false] at hc
    rcases hc with rfl | rfl | rfl <;> (rw [sextet_enc]; rfl)
  | [a] => by
    intro c hc
    simp only [encode64, List.mem_cons, List.not_mem_nil, or_false] at hc
    rcases hc with rfl | rfl <;> (rw [sextet_enc]; rfl)
  | [] => by simp [encode64]

theorem encode_length : ∀ (b : List UInt8), (encode64 b).length = (8 * b.length + 5) / 6
  | a :: b :: d :: t => by
    have := encode_length t
    simp only [encode64, List.length_cons, this]
    omega
  | [a, b] => by simp [encode64]
  | [a] => by simp [encode64]
  | [] => by simp [encode64]

theorem foldl_encode : ∀ (b : List UInt8) (acc : Nat), (encode64 b).foldl (fun n c => n * 64 + (sextet c).getD 0) acc =
    b.foldl (fun n x => n * 256 + x.toNat) acc * 4 ^ ((3 - b.length % 3) % 3)
  | a :: b :: d :: t, acc => by
    have e : (a :: b :: d :: t).length % 3 = t.length % 3 := by simp; omega
    rw [e]
    simp only [encode64, List.foldl_cons, sextet_enc, Option.getD_some]
    have ha := a.toNat_lt
    have hb := b.toNat_lt
    have hd := d.toNat_lt
    rw [foldl_encode t]
    congr 2
    omega
  | [a, b], acc => by
    have ha := a.toNat_lt
    have hb := b.toNat_lt
    simp only [encode64, List.foldl_cons, List.foldl_nil, sextet_enc, Option.getD_some, List.length_cons, List.length_nil]
    norm_num
    omega
  | [a], acc => by
    have ha := a.toNat_lt
    simp only [encode64, List.foldl_cons, List.foldl_nil, sextet_enc, Option.getD_some, List.length_cons, List.length_nil]
    norm_num
    omega
  | [], acc => by simp [encode64]

theorem ofNat_eq (c : UInt8) {n : Nat} (h : n % 256 = c.toNat) : UInt8.ofNat n = c := by
  rw [ofNat_mod]; exact byte_eq c h

theorem decode_encode : ∀ (b : List UInt8), ∃ vs, decChars (encode64 b) = some vs ∧ assemble vs = some b
  | a :: b :: d :: t => by
    obtain ⟨vs, h1, h2⟩ := decode_encode t
    have ha := a.toNat_lt
    have hb := b.toNat_lt
    have hd := d.toNat_lt
    simp only [encode64, decChars, dec_enc, h1, Option.some.injEq, exists_eq_left', assemble, h2]
    rw [ofNat_eq a (by omega), ofNat_eq b (by omega), ofNat_eq d (by omega)]
  | [a, b] => by
    have ha := a.toNat_lt
    have hb := b.toNat_lt
    simp only [encode64, decChars, dec_enc, Option.some.injEq, exists_eq_left', assemble]
    rw [ofNat_eq a (by omega), ofNat_eq b (by omega)]
  | [a] => by
    have ha := a.toNat_lt
    simp only [encode64, decChars, dec_enc, Option.some.injEq, exists_eq_left', assemble]
    rw [ofNat_eq a (by omega)]
  | [] => ⟨[], rfl, rfl⟩

theorem filter_encode (b : List UInt8) : (encode64 b).filter (fun c => c ≠ 10 ∧ c ≠ 13) = encode64 b := by
  rw [List.filter_eq_self]
  intro c hc
  have := encode_alphabet b c hc
  simp only [decide_eq_true_eq]
  constructor
  · rintro rfl; exact absurd this (by decide)
  · rintro rfl; exact absurd this (by decide)

theorem decode64_encode64 (b : List UInt8) : decode64 (encode64 b) = some b := by
  unfold decode64
  rw [filter_encode]
  obtain ⟨vs, h1, h2⟩ := decode_encode b
  rw [h1]; exact h2

theorem decChars_none : ∀ {s : List UInt8} {c : UInt8}, c ∈ s → sextet c = none → decChars s = none
  | x :: t, c, h, hc => by
    rw [decChars]
    rcases List.mem_cons.1 h with rfl | h
    · rw [decChar_eq, hc]
    · rw [decChars_none h hc]
      split <;> simp_all

/-- Four characters at a time, decoding loses nothing. -/
theorem decode_inj : ∀ {s : List UInt8} {vs : List Nat} {b : List UInt8}, s.length % 4 = 0 → decChars s = some vs → assemble vs = some b → s = encode64 b
  | [], vs, b, _, h1, h2 => by
    cases h1; cases h2; rfl
  | [_], _, _, h, _, _ => by simp at h
  | [_, _], _, _, h, _, _ => by simp at h
  | [_, _, _], _, _, h, _, _ => by simp at h
  | c1 :: c2 :: c3 :: c4 :: s, vs, b, h, h1, h2 => by
    have hn : ∀ {c : UInt8} {s : List UInt8} {vs : List Nat}, decChars (c :: s) = some vs →
        ∃ v vs', vs = v :: vs' ∧ sextet c = some v ∧ decChars s = some vs' := by
      intro c s vs h
      rw [decChars] at h
      split at h
      · rename_i v vs' g1 g2
        rw [decChar_eq] at g1
        cases h
        exact ⟨_, _, rfl, g1, g2⟩
      · cases h
    obtain ⟨v1, vs, rfl, e1, h11⟩ := hn h1
    obtain ⟨v2, vs, rfl, e2, h12⟩ := hn h11
    obtain ⟨v3, vs, rfl, e3, h13⟩ := hn h12
    obtain ⟨v4, vs, rfl, e4, h14⟩ := hn h13
    obtain ⟨rfl, l1⟩ := enc_sextet e1
    obtain ⟨rfl, l2⟩ := enc_sextet e2
    obtain ⟨rfl, l3⟩ := enc_sextet e3
    obtain ⟨rfl, l4⟩ := enc_sextet e4
    rw [assemble] at h2
    split at h2
    · rename_i r hr
      cases h2
      have ih := decode_inj (s := s) (by simp at h; omega) h14 hr
      have en : ∀ x y : Nat, x % 64 = y % 64 → encChar x = encChar y := fun x y h => by unfold encChar; rw [h]
      have m : ∀ n, (UInt8.ofNat n).toNat = n % 256 := fun n => by rw [UInt8.toNat_ofNat']
      simp only [encode64, m, ← ih, List.cons.injEq, and_true]
      refine ⟨en _ _ ?_, en _ _ ?_, en _ _ ?_, en _ _ ?_⟩ <;> omega
    · cases h2

/-- With bits left over there is another string with the same bytes. -/
theorem decode_other : ∀ (b : List UInt8), b.length % 3 ≠ 0 → ∃ s vs, s ≠ encode64 b ∧ s.length = (encode64 b).length ∧
    (∀ c ∈ s, (sextet c).isSome = true) ∧ decChars s = some vs ∧ assemble vs = some b
  | a :: b :: d :: t, h => by
    obtain ⟨s, vs, h0, h1, h2, h3, h4⟩ := decode_other t (by simp at h; omega)
    have ha := a.toNat_lt
    have hb := b.toNat_lt
    have hd := d.toNat_lt
    obtain ⟨v, hv⟩ : ∃ v, v = a.toNat * 65536 + b.toNat * 256 + d.toNat := ⟨_, rfl⟩
    refine ⟨encChar (v / 262144) :: encChar (v / 4096) :: encChar (v / 64) :: encChar v :: s,
      v / 262144 % 64 :: v / 4096 % 64 :: v / 64 % 64 :: v % 64 :: vs, ?_, ?_, ?_, ?_, ?_⟩
    · simp only [encode64, ← hv]
      intro e
      simp only [List.cons.injEq, true_and] at e
      exact h0 e
    · simp only [encode64, List.length_cons, h1]
    · intro c hc
      simp only [List.mem_cons] at hc
      rcases hc with rfl | rfl | rfl | rfl | hc
      · rw [sextet_enc]; rfl
      · rw [sextet_enc]; rfl
      · rw [sextet_enc]; rfl
      · rw [sextet_enc]; rfl
      · exact h2 c hc
    · simp only [decChars, dec_enc, h3]
    · simp only [assemble, h4]
      rw [ofNat_eq a (by omega), ofNat_eq b (by omega), ofNat_eq d (by omega)]
  | [a, b], _ => by
    have ha := a.toNat_lt
    have hb := b.toNat_lt
    obtain ⟨v, hv⟩ : ∃ v, v = a.toNat * 65536 + b.toNat * 256 := ⟨_, rfl⟩
    refine ⟨[encChar (v / 262144), encChar (v / 4096), encChar (v / 64 + 1)], [v / 262144 % 64, v / 4096 % 64, (v / 64 + 1) % 64], ?_, rfl, ?_, ?_, ?_⟩
    · simp only [encode64, ← hv]
      intro e
      simp only [List.cons.injEq, true_and, and_true] at e
      have := congrArg sextet e
      rw [sextet_enc, sextet_enc] at this
      have := Option.some.inj this
      omega
    · intro c hc
      simp only [List.mem_cons, List.not_mem_nil, or_false] at hc
      rcases hc with rfl | rfl | rfl <;> (rw [sextet_enc]; rfl)
    · simp only [decChars, dec_enc]
    · simp only [assemble]
      rw [ofNat_eq a (by omega), ofNat_eq b (by omega)]
  | [a], _ => by
    have ha := a.toNat_lt
    obtain ⟨v, hv⟩ : ∃ v, v = a.toNat * 65536 := ⟨_, rfl⟩
    refine ⟨[encChar (v / 262144), encChar (v / 4096 + 1)], [v / 262144 % 64, (v / 4096 + 1) % 64], ?_, rfl, ?_, ?_, ?_⟩
    · simp only [encode64, ← hv]
      intro e
      simp only [List.cons.injEq, true_and, and_true] at e
      have := congrArg sextet e
      rw [sextet_enc, sextet_enc] at this
      have := Option.some.inj this
      omega
    · intro c hc
      simp only [List.mem_cons, List.not_mem_nil, or_false] at hc
      rcases hc with rfl | rfl <;> (rw [sextet_enc]; rfl)
    · simp only [decChars, dec_enc]
    · simp only [assemble]
      rw [ofNat_eq a (by omega)]
  | [], h => by simp at h

theorem decode64_other (b : List UInt8) (h : b.length % 3 ≠ 0) : ∃ s, s ≠ encode64 b ∧ s.length = (encode64 b).length ∧
    (∀ c ∈ s, (sextet c).isSome = true) ∧ decode64 s = some b := by
  obtain ⟨s, vs, h0, h1, h2, h3, h4⟩ := decode_other b h
  refine ⟨s, h0, h1, h2, ?_⟩
  unfold decode64
  have hf : s.filter (fun c => c ≠ 10 ∧ c ≠ 13) = s := by
    rw [List.filter_eq_self]
    intro c hc
    have := h2 c hc
    simp only [decide_eq_true_eq]
    constructor
    · rintro rfl; exact absurd this (by decide)
    · rintro rfl; exact absurd this (by decide)
  rw [hf, h3]
  exact h4

theorem assemble_isSome : ∀ vs : List Nat, (assemble vs).isSome = true ↔ vs.length % 4 ≠ 1
  | a :: b :: c :: d :: t => by
    have ih := assemble_isSome t
    rw [assemble]
    simp only [List.length_cons]
    rw [show (t.length + 1 + 1 + 1 + 1) % 4 = t.length % 4 by omega, ← ih]
    cases assemble t <;> simp
  | [a, b, c] => by simp [assemble]
  | [a, b] => by simp [assemble]
  | [a] => by simp [assemble]
  | [] => by simp [assemble]

theorem decChars_isSome : ∀ s : List UInt8, ((decChars s).isSome = true ↔ ∀ c ∈ s, (sextet c).isSome = true) ∧
    ∀ vs, decChars s = some vs → vs.length = s.length
  | [] => by simp [decChars]
  | c :: s => by
    obtain ⟨h1, h2⟩ := decChars_isSome s
    rw [decChars, decChar_eq]
    simp only [List.mem_cons, forall_eq_or_imp, ← h1]
    cases hc : sextet c with
    | none => simp
    | some v =>
      cases hs : decChars s with
      | none => simp
      | some vs =>
        simp only [Option.isSome_some, and_self, true_and]
        rintro _ ⟨rfl⟩
        simp [h2 vs hs]

end Verif.PassHash
