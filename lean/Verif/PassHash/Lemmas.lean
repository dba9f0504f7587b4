import Verif.PassHash.Spec
/-!
# Lemmas about password hash records
-/
namespace Verif.PassHash
open Verif.Go

theorem or_add (a b k : Nat) (h : b < 2 ^ k) : b ||| a <<< k = b + a * 2 ^ k := by
  rw [Nat.or_comm, ← Nat.shiftLeft_add_eq_or_of_lt h, Nat.shiftLeft_eq, Nat.add_comm]

theorem or8 (b0 b1 b2 b3 b4 b5 b6 b7 : Nat) (h0 : b0 < 256) (h1 : b1 < 256) (h2 : b2 < 256) (h3 : b3 < 256) (h4 : b4 < 256)
    (h5 : b5 < 256) (h6 : b6 < 256) :
    b0 ||| b1 <<< 8 ||| b2 <<< 16 ||| b3 <<< 24 ||| b4 <<< 32 ||| b5 <<< 40 ||| b6 <<< 48 ||| b7 <<< 56 =
      b0 + b1 * 2 ^ 8 + b2 * 2 ^ 16 + b3 * 2 ^ 24 + b4 * 2 ^ 32 + b5 * 2 ^ 40 + b6 * 2 ^ 48 + b7 * 2 ^ 56 := by
  rw [or_add b1 _ 8 (by omega), or_add b2 _ 16 (by omega), or_add b3 _ 24 (by omega), or_add b4 _ 32 (by omega),
    or_add b5 _ 40 (by omega), or_add b6 _ 48 (by omega), or_add b7 _ 56 (by omega)]

/-- The number in eight bytes. -/
def val8 (b0 b1 b2 b3 b4 b5 b6 b7 : UInt8) : Nat :=
  b0.toNat + b1.toNat * 2 ^ 8 + b2.toNat * 2 ^ 16 + b3.toNat * 2 ^ 24 + b4.toNat * 2 ^ 32 + b5.toNat * 2 ^ 40 + b6.toNat * 2 ^ 48 +
    b7.toNat * 2 ^ 56

theorem toNat_ofNat {n : Nat} (h : n < 256) : (UInt8.ofNat n).toNat = n := by
  rw [UInt8.toNat_ofNat']; exact Nat.mod_eq_of_lt h

theorem byte_eq (c : UInt8) {n : Nat} (h : n = c.toNat) : UInt8.ofNat n = c := by
  subst h; exact UInt8.ofNat_toNat

theorem le64_eq (v : Nat) : le64 v = [UInt8.ofNat (v % 256), UInt8.ofNat (v / 256 % 256), UInt8.ofNat (v / 65536 % 256),
    UInt8.ofNat (v / 16777216 % 256), UInt8.ofNat (v / 4294967296 % 256), UInt8.ofNat (v / 1099511627776 % 256),
    UInt8.ofNat (v / 281474976710656 % 256), UInt8.ofNat (v / 72057594037927936 % 256)] := by
  simp [le64, List.range_succ]

theorem le64_val (b0 b1 b2 b3 b4 b5 b6 b7 : UInt8) : le64 (val8 b0 b1 b2 b3 b4 b5 b6 b7) = [b0, b1, b2, b3, b4, b5, b6, b7] := by
  have h0 := b0.toNat_lt
  have h1 := b1.toNat_lt
  have h2 := b2.toNat_lt
  have h3 := b3.toNat_lt
  have h4 := b4.toNat_lt
  have h5 := b5.toNat_lt
  have h6 := b6.toNat_lt
  have h7 := b7.toNat_lt
  rw [le64_eq, val8]
  rw [byte_eq b0 (by omega), byte_eq b1 (by omega), byte_eq b2 (by omega), byte_eq b3 (by omega), byte_eq b4 (by omega),
    byte_eq b5 (by omega), byte_eq b6 (by omega), byte_eq b7 (by omega)]

theorem val8_lt (b0 b1 b2 b3 b4 b5 b6 b7 : UInt8) : val8 b0 b1 b2 b3 b4 b5 b6 b7 < 2 ^ 64 := by
  have h0 := b0.toNat_lt
  have h1 := b1.toNat_lt
  have h2 := b2.toNat_lt
  have h3 := b3.toNat_lt
  have h4 := b4.toNat_lt
  have h5 := b5.toNat_lt
  have h6 := b6.toNat_lt
  have h7 := b7.toNat_lt
  unfold val8
  omega

theorem val8_le64 {v : Nat} (hv : v < 2 ^ 64) : val8 (UInt8.ofNat (v % 256)) (UInt8.ofNat (v / 256 % 256)) (UInt8.ofNat (v / 65536 % 256))
    (UInt8.ofNat (v / 16777216 % 256)) (UInt8.ofNat (v / 4294967296 % 256)) (UInt8.ofNat (v / 1099511627776 % 256))
    (UInt8.ofNat (v / 281474976710656 % 256)) (UInt8.ofNat (v / 72057594037927936 % 256)) = v := by
  unfold val8
  rw [toNat_ofNat (by omega), toNat_ofNat (by omega), toNat_ofNat (by omega), toNat_ofNat (by omega), toNat_ofNat (by omega),
    toNat_ofNat (by omega), toNat_ofNat (by omega), toNat_ofNat (by omega)]
  omega

/-- A slice is its bytes and what is behind them. -/
theorem slice_split (s : Slice) : ∃ bs ex, s.bytes = bs ∧ s.mem = bs ++ ex ∧ s.len = bs.length := by
  refine ⟨s.bytes, s.mem.drop s.len, rfl, by simp [Slice.bytes], ?_⟩
  have := s.ok
  simp [Slice.bytes, this]

theorem at_get {s : Slice} {l : List UInt8} (hm : s.mem = l) {i : Nat} (h : i < s.len) : s.at i = .ret (l.getD i 0) := by
  unfold Slice.at; rw [if_pos h, hm]

theorem u64_get {s : Slice} {l : List UInt8} (hm : s.mem = l) {i : Nat} (h : i + 7 < s.len) : s.u64 i =
    .ret (val8 (l.getD i 0) (l.getD (i + 1) 0) (l.getD (i + 2) 0) (l.getD (i + 3) 0) (l.getD (i + 4) 0) (l.getD (i + 5) 0)
      (l.getD (i + 6) 0) (l.getD (i + 7) 0)) := by
  unfold Slice.u64
  rw [at_get hm (by omega), at_get hm (by omega), at_get hm (by omega), at_get hm (by omega), at_get hm (by omega), at_get hm (by omega),
    at_get hm (by omega), at_get hm (by omega)]
  change Outcome.ret _ = _
  rw [or8 _ _ _ _ _ _ _ _ (UInt8.toNat_lt _) (UInt8.toNat_lt _) (UInt8.toNat_lt _) (UInt8.toNat_lt _) (UInt8.toNat_lt _)
    (UInt8.toNat_lt _) (UInt8.toNat_lt _)]
  rfl

theorem cons17 (l : List UInt8) (h : 17 ≤ l.length) : ∃ p a0 a1 a2 a3 a4 a5 a6 a7 b0 b1 b2 b3 b4 b5 b6 b7 r,
    l = p :: a0 :: a1 :: a2 :: a3 :: a4 :: a5 :: a6 :: a7 :: b0 :: b1 :: b2 :: b3 :: b4 :: b5 :: b6 :: b7 :: r := by
  iterate 17 (rcases l with _ | ⟨_, l⟩; · exact absurd h (by simp))
  exact ⟨_, _, _, _, _, _, _, _, _, _, _, _, _, _, _, _, _, _, rfl⟩

/-- What the functions do on a slice with at least 17 bytes. -/
theorem header {o1 o2 : Nat} {s : Slice} {p a0 a1 a2 a3 a4 a5 a6 a7 b0 b1 b2 b3 b4 b5 b6 b7 : UInt8} {r : List UInt8}
    (h : s.bytes = p :: a0 :: a1 :: a2 :: a3 :: a4 :: a5 :: a6 :: a7 :: b0 :: b1 :: b2 :: b3 :: b4 :: b5 :: b6 :: b7 :: r)
    (ho1 : val8 a0 a1 a2 a3 a4 a5 a6 a7 = o1) (ho2 : val8 b0 b1 b2 b3 b4 b5 b6 b7 = o2) :
    s.len = 17 + r.length ∧
    validate s = .ret (decide (17 ≤ o1 ∧ o1 ≤ o2 ∧ o2 ≤ 17 + r.length)) ∧ param s = .ret p ∧
    (17 ≤ o1 → o1 ≤ 17 + r.length → salt s = .ret (r.take (o1 - 17))) ∧
    (17 ≤ o1 → o1 ≤ o2 → o2 ≤ 17 + r.length → hash s = .ret ((r.drop (o1 - 17)).take (o2 - o1))) := by
  obtain ⟨bs, ex, h1, h2, h3⟩ := slice_split s
  rw [h] at h1
  subst h1
  have hl : s.len = 17 + r.length := by rw [h3]; simp; omega
  have u1 : s.u64 1 = .ret o1 := by rw [← ho1]; exact u64_get h2 (by omega)
  have u9 : s.u64 9 = .ret o2 := by rw [← ho2]; exact u64_get h2 (by omega)
  clear ho1 ho2
  have hml : s.mem.length = 17 + r.length + ex.length := by rw [h2]; simp; omega
  have hsub : ∀ a b, 17 ≤ a → a ≤ b → b ≤ 17 + r.length → s.sub a b = .ret ((r.drop (a - 17)).take (b - a)) := by
    intro a b ha hab hb
    unfold Slice.sub
    rw [if_pos ⟨hab, by omega⟩, h2]
    congr 1
    obtain ⟨k, rfl⟩ : ∃ k, a = k + 17 := ⟨a - 17, by omega⟩
    simp only [List.cons_append, Nat.add_sub_cancel]
    rw [show ∀ l, (p :: a0 :: a1 :: a2 :: a3 :: a4 :: a5 :: a6 :: a7 :: b0 :: b1 :: b2 :: b3 :: b4 :: b5 :: b6 :: b7 :: l).drop (k + 17) =
      l.drop k from fun _ => rfl]
    rw [List.drop_append_of_le_length (by omega), List.take_append_of_le_length (by simp; omega)]
  refine ⟨hl, ?_, at_get h2 (by omega), fun g1 g2 => ?_, fun g1 g2 g3 => ?_⟩
  · unfold validate
    rw [if_neg (by omega), at_get h2 (i := 16) (by omega), u1, u9, hl]
    rfl
  · unfold salt
    rw [at_get h2 (i := 8) (by omega), u1]
    change s.sub 17 o1 = _
    rw [hsub 17 o1 (by omega) g1 g2]
    simp
  · unfold hash
    rw [at_get h2 (i := 16) (by omega), u1, u9]
    change s.sub o1 o2 = _
    rw [hsub o1 o2 g1 g2 g3]

/-- Reading a record. -/
theorem parse {s : Slice} {prm : UInt8} {slt hsh : List UInt8} (h : IsRecord s.bytes prm slt hsh) :
    validate s = .ret true ∧ param s = .ret prm ∧ salt s = .ret slt ∧ hash s = .ret hsh := by
  obtain ⟨tail, h, hz⟩ := h
  unfold record at h
  rw [le64_eq, le64_eq] at h
  simp only [List.cons_append, List.nil_append, List.append_assoc] at h
  obtain ⟨g1, g2, g3, g4, g5⟩ := header h (val8_le64 (by omega)) (val8_le64 hz)
  have hr : (slt ++ (hsh ++ tail)).length = slt.length + (hsh.length + tail.length) := by simp
  rw [hr] at g2 g4 g5
  refine ⟨by rw [g2, decide_eq_true (by omega)], g3, ?_, ?_⟩
  · rw [g4 (by omega) (by omega)]
    simp
  · rw [g5 (by omega) (by omega) (by omega)]
    congr 1
    rw [show 17 + slt.length - 17 = slt.length by omega, List.drop_left,
      show 17 + slt.length + hsh.length - (17 + slt.length) = hsh.length by omega, List.take_left]

/-- `validate` tells the records from the rest. -/
theorem validate_cases (s : Slice) : (validate s = .ret true ∧ ∃ prm slt hsh, IsRecord s.bytes prm slt hsh) ∨
    (validate s = .ret false ∧ ¬ ∃ prm slt hsh, IsRecord s.bytes prm slt hsh) := by
  have no : validate s = .ret false → ¬ ∃ prm slt hsh, IsRecord s.bytes prm slt hsh := by
    rintro h ⟨prm, slt, hsh, hr⟩
    rw [(parse hr).1] at h
    simp at h
  have hb : s.bytes.length = s.len := by have := s.ok; simp [Slice.bytes, this]
  by_cases hl : s.len < 17
  · have : validate s = .ret false := by unfold validate; rw [if_pos hl]
    exact .inr ⟨this, no this⟩
  · obtain ⟨p, a0, a1, a2, a3, a4, a5, a6, a7, b0, b1, b2, b3, b4, b5, b6, b7, r, h⟩ := cons17 s.bytes (by omega)
    have hv := le64_val a0 a1 a2 a3 a4 a5 a6 a7
    have hw := le64_val b0 b1 b2 b3 b4 b5 b6 b7
    have hlt := val8_lt b0 b1 b2 b3 b4 b5 b6 b7
    obtain ⟨o1, ho1⟩ : ∃ o1, val8 a0 a1 a2 a3 a4 a5 a6 a7 = o1 := ⟨_, rfl⟩
    obtain ⟨o2, ho2⟩ : ∃ o2, val8 b0 b1 b2 b3 b4 b5 b6 b7 = o2 := ⟨_, rfl⟩
    obtain ⟨g1, g2, _⟩ := header h ho1 ho2
    rw [ho1] at hv
    rw [ho2] at hw hlt
    clear ho1 ho2
    by_cases hc : 17 ≤ o1 ∧ o1 ≤ o2 ∧ o2 ≤ 17 + r.length
    · rw [decide_eq_true hc] at g2
      have l1 : (r.take (o1 - 17)).length = o1 - 17 := by simp; omega
      have l2 : ((r.drop (o1 - 17)).take (o2 - o1)).length = o2 - o1 := by simp; omega
      refine .inl ⟨g2, p, r.take (o1 - 17), (r.drop (o1 - 17)).take (o2 - o1), r.drop (o2 - 17), ?_, by rw [l1, l2]; omega⟩
      unfold record
      rw [l1, l2, show 17 + (o1 - 17) = o1 by omega, show o1 + (o2 - o1) = o2 by omega, hv, hw, h]
      simp only [List.cons_append, List.nil_append, List.append_assoc]
      have e1 : o2 - 17 = (o1 - 17) + (o2 - o1) := by omega
      rw [e1, ← List.drop_drop, List.take_append_drop, List.take_append_drop]
    · rw [decide_eq_false hc] at g2
      exact .inr ⟨g2, no g2⟩

theorem isRecord_unique {bs : List UInt8} {p p' : UInt8} {s s' h h' : List UInt8} (r : IsRecord bs p s h) (r' : IsRecord bs p' s' h') :
    p = p' ∧ s = s' ∧ h = h' := by
  have e : (Slice.of bs).bytes = bs := by simp [Slice.of, Slice.bytes]
  rw [← e] at r r'
  obtain ⟨_, a1, a2, a3⟩ := parse r
  obtain ⟨_, b1, b2, b3⟩ := parse r'
  rw [a1] at b1; rw [a2] at b2; rw [a3] at b3
  simp at b1 b2 b3
  exact ⟨b1, b2, b3⟩

/-! ## Writing a record -/

theorem store_get {d : List UInt8} {i : Nat} (b : UInt8) (h : i < d.length) : store d i b = .ret (d.set i b) := by
  unfold store; rw [if_pos h]

theorem shift8 (v k : Nat) : UInt8.ofNat (v >>> k) = UInt8.ofNat (v / 2 ^ k % 256) := by
  rw [Nat.shiftRight_eq_div_pow]
  apply UInt8.toNat_inj.1
  rw [UInt8.toNat_ofNat', UInt8.toNat_ofNat', Nat.mod_mod]

theorem ofNat_mod (v : Nat) : UInt8.ofNat v = UInt8.ofNat (v % 256) := by
  apply UInt8.toNat_inj.1
  rw [UInt8.toNat_ofNat', UInt8.toNat_ofNat', Nat.mod_mod]

theorem store64_eq (pre : List UInt8) (a0 a1 a2 a3 a4 a5 a6 a7 : UInt8) (r : List UInt8) (v : Nat) :
    store64 (pre ++ a0 :: a1 :: a2 :: a3 :: a4 :: a5 :: a6 :: a7 :: r) pre.length v = .ret (pre ++ le64 v ++ r) := by
  unfold store64
  have st : ∀ (x : List UInt8) (y b : UInt8) (z : List UInt8) (i : Nat), x.length = i → store (x ++ y :: z) i b = .ret (x ++ b :: z) := by
    intro x y b z i hi
    subst hi
    rw [store_get b (by simp)]
    simp
  have ap : ∀ (x : List UInt8) (y : UInt8) (z : List UInt8), x ++ y :: z = (x ++ [y]) ++ z := by simp
  rw [st _ _ _ _ _ rfl]
  simp only [bind, Outcome.bind_ret]
  rw [ap, st _ _ _ _ _ (by simp)]
  simp only [Outcome.bind_ret]
  rw [ap, st _ _ _ _ _ (by simp)]
  simp only [Outcome.bind_ret]
  rw [ap, st _ _ _ _ _ (by simp)]
  simp only [Outcome.bind_ret]
  rw [ap, st _ _ _ _ _ (by simp)]
  simp only [Outcome.bind_ret]
  rw [ap, st _ _ _ _ _ (by simp)]
  simp only [Outcome.bind_ret]
  rw [ap, st _ _ _ _ _ (by simp)]
  simp only [Outcome.bind_ret]
  rw [ap, st _ _ _ _ _ (by simp)]
  rw [le64_eq, ofNat_mod v]
  simp only [shift8]
  simp

theorem copy_eq (pre mid post src : List UInt8) (h : mid.length = src.length) {a b : Nat} (ha : pre.length = a) (hb : b = a + src.length) :
    copy (pre ++ mid ++ post) a b src = .ret (pre ++ src ++ post) := by
  subst ha hb
  unfold copy
  rw [if_pos ⟨by omega, by simp; omega⟩]
  congr 1
  rw [show pre.length + src.length - pre.length = src.length by omega, Nat.min_self, List.take_length]
  rw [List.append_assoc pre mid post, List.take_left, ← h, ← List.length_append, ← List.append_assoc, List.drop_left]

theorem newRecord_eq {prm : UInt8} {slt hsh : List UInt8} (h : 17 + slt.length + hsh.length < 2 ^ 63) :
    newRecord prm slt hsh = .ret (record prm slt hsh) := by
  unfold newRecord
  simp only
  rw [if_pos h]
  have e : List.replicate (17 + slt.length + hsh.length) (0 : UInt8) =
      0 :: 0 :: 0 :: 0 :: 0 :: 0 :: 0 :: 0 :: 0 :: 0 :: 0 :: 0 :: 0 :: 0 :: 0 :: 0 :: 0 :: (List.replicate slt.length 0 ++ List.replicate hsh.length 0) := by
    rw [← List.replicate_add, show 17 + slt.length + hsh.length = (slt.length + hsh.length) + 17 by omega]
    rfl
  rw [e]
  unfold serialize
  simp only
  rw [if_pos (by simp)]
  simp only [bind, Outcome.bind_ret]
  rw [store_get prm (by simp)]
  simp only [Outcome.bind_ret, List.set_cons_zero]
  rw [Nat.mod_eq_of_lt (show slt.length + 17 < 2 ^ 64 by omega)]
  have s1 := store64_eq [prm] 0 0 0 0 0 0 0 0 (0 :: 0 :: 0 :: 0 :: 0 :: 0 :: 0 :: 0 :: (List.replicate slt.length 0 ++ List.replicate hsh.length 0)) (slt.length + 17)
  simp only [List.cons_append, List.nil_append, List.length_singleton] at s1
  rw [s1]
  simp only [Outcome.bind_ret]
  have l64 : ∀ v, (le64 v).length = 8 := fun v => by simp [le64]
  have c1 := copy_eq (prm :: (le64 (slt.length + 17) ++ [0, 0, 0, 0, 0, 0, 0, 0])) (List.replicate slt.length 0) (List.replicate hsh.length 0) slt
    (by simp) (a := 17) (b := slt.length + 17) (by simp [l64]) (by omega)
  simp only [List.cons_append, List.nil_append, List.append_assoc] at c1 ⊢
  rw [c1]
  simp only [Outcome.bind_ret]
  rw [Nat.mod_eq_of_lt (show 17 + slt.length < 2 ^ 64 by omega), Nat.mod_eq_of_lt (show hsh.length + (17 + slt.length) < 2 ^ 64 by omega)]
  have s2 := store64_eq (prm :: le64 (slt.length + 17)) 0 0 0 0 0 0 0 0 (slt ++ List.replicate hsh.length 0) (hsh.length + (17 + slt.length))
  simp only [List.cons_append, List.nil_append, List.length_cons, l64, List.append_assoc] at s2
  rw [s2]
  simp only [Outcome.bind_ret]
  have c2 := copy_eq (prm :: (le64 (slt.length + 17) ++ (le64 (hsh.length + (17 + slt.length)) ++ slt))) (List.replicate hsh.length 0) [] hsh
    (by simp) (a := 17 + slt.length) (b := hsh.length + (17 + slt.length)) (by simp [l64]; omega) (by omega)
  simp only [List.cons_append, List.append_nil, List.append_assoc] at c2
  rw [c2]
  unfold record
  rw [Nat.add_comm slt.length 17, Nat.add_comm hsh.length]
  simp

/-! ## Comparing -/

theorem foldl_or (l : List UInt8) (v : UInt8) : l.foldl (fun v b => v ||| b) v = 0 ↔ v = 0 ∧ ∀ b ∈ l, b = 0 := by
  induction l generalizing v with
  | nil => simp
  | cons b l ih =>
    rw [List.foldl_cons, ih, UInt8.or_eq_zero_iff]
    simp [and_assoc]

theorem constantTimeEq_iff (x y : List UInt8) : constantTimeEq x y = true ↔ x = y := by
  unfold constantTimeEq
  split
  · rename_i h
    constructor
    · intro h'; cases h'
    · rintro rfl; exact absurd rfl h
  · rename_i h
    simp only [ne_eq, not_not] at h
    rw [beq_iff_eq, foldl_or]
    simp only [true_and]
    induction x generalizing y with
    | nil => cases y with
      | nil => simp
      | cons b y => simp at h
    | cons a x ih => cases y with
      | nil => simp at h
      | cons b y =>
        have := ih y (by simpa using h)
        simp only [List.zipWith_cons_cons, List.mem_cons, forall_eq_or_imp, this, UInt8.xor_eq_zero_iff, List.cons.injEq]

theorem alg_derive (K : Kdf) (prm : UInt8) : (prm.toNat < 4 ∧ ∃ f, alg K prm = some f ∧ ∀ p s, ∃ k, f p s = .ret k ∧ derive K prm p s = some k) ∨
    (¬ prm.toNat < 4 ∧ ∀ p s, derive K prm p s = none) := by
  unfold alg derive
  rcases h : prm.toNat with _ | _ | _ | _ | n
  · exact .inl ⟨by omega, _, rfl, fun p s => ⟨_, rfl, rfl⟩⟩
  · exact .inl ⟨by omega, _, rfl, fun p s => ⟨_, rfl, rfl⟩⟩
  · exact .inl ⟨by omega, _, rfl, fun p s => ⟨_, rfl, rfl⟩⟩
  · exact .inl ⟨by omega, _, rfl, fun p s => ⟨_, rfl, rfl⟩⟩
  · exact .inr ⟨by omega, fun p s => rfl⟩

/-- What `Verify` does with a record. -/
theorem verify_record (K : Kdf) (password : List UInt8) {s : Slice} {prm : UInt8} {slt hsh : List UInt8} (h : IsRecord s.bytes prm slt hsh) :
    verify K password s = .ret (match derive K prm password slt with
      | none => some .unknownAlgorithm
      | some k => if k = hsh then none else some .hashMismatch) := by
  obtain ⟨h1, h2, h3, h4⟩ := parse h
  unfold verify
  rw [h1, h2, h3, h4]
  rcases alg_derive K prm with ⟨g1, f, g2, g3⟩ | ⟨g1, g2⟩
  · obtain ⟨k, g4, g5⟩ := g3 password slt
    rw [g5]
    simp only [bind, Outcome.bind_ret, Bool.true_eq_false, if_false, g1, if_true, g2, g4]
    by_cases e : k = hsh
    · rw [if_pos ((constantTimeEq_iff _ _).2 e), if_pos e]
    · rw [if_neg (fun h => e ((constantTimeEq_iff _ _).1 h)), if_neg e]
  · rw [g2]
    simp only [bind, Outcome.bind_ret, Bool.true_eq_false, if_false, g1]

theorem verify_not (K : Kdf) (password : List UInt8) {s : Slice} (h : ¬ ∃ prm slt hsh, IsRecord s.bytes prm slt hsh) :
    verify K password s = .ret (some .invalidPassHash) := by
  rcases validate_cases s with ⟨_, h'⟩ | ⟨h', _⟩
  · exact absurd h' h
  · unfold verify
    rw [h']
    simp [bind]

end Verif.PassHash
