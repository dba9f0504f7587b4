import Verif.Demo.Model
import Verif.ConvChain.Lemmas
/-!
# C148: what the example program prints
-/
namespace Verif.Demo
open Verif.Go Verif.ConvNum Verif.ConvFloat Verif.ConvReg Verif.ConvInit Verif.ConvChain

/-! ## Specification -/

/-- The number that digits stand for, the most significant first. -/
def number (base : Nat) (ds : List Nat) : Nat := ds.foldl (fun n d => n * base + d) 0

/-- `c` is the hexadecimal digit for `d`, with small letters. -/
def Hex (c : UInt8) (d : Nat) : Prop := d < 16 ∧ if d < 10 then c.toNat = 48 + d else c.toNat = 97 + (d - 10)

/-- `h` is the number of the bytes `b` written with two hexadecimal digits for each byte. -/
def HexOf (b h : List UInt8) : Prop :=
  ∃ ds : List Nat, List.Forall₂ Hex h ds ∧ h.length = 2 * b.length ∧ number 16 ds = number 256 (b.map UInt8.toNat)

/-! ## Lemmas -/

theorem digit_hex (d : Fin 16) : Hex (hextable.getD d 0) d := by
  revert d; unfold Hex hextable; decide

theorem shift_and (v : UInt8) : (v >>> 4).toNat = v.toNat / 16 ∧ (v &&& 15).toNat = v.toNat % 16 := by
  constructor
  · rw [UInt8.toNat_shiftRight, Nat.shiftRight_eq_div_pow]; rfl
  · rw [UInt8.toNat_and, show (15 : UInt8).toNat = 2 ^ 4 - 1 by rfl, Nat.and_two_pow_sub_one_eq_mod]

theorem number_acc (base : Nat) (ds : List Nat) : ∀ n, ds.foldl (fun n d => n * base + d) n = n * base ^ ds.length + number base ds := by
  unfold number
  induction ds with
  | nil => intro n; simp
  | cons d ds ih =>
    intro n
    simp only [List.foldl_cons, List.length_cons]
    rw [ih (n * base + d), ih (0 * base + d), Nat.pow_succ, Nat.add_mul, Nat.zero_mul, Nat.zero_add, Nat.mul_assoc, Nat.mul_comm base]
    omega

theorem hex_unique {h : List UInt8} {ds ds' : List Nat} (h1 : List.Forall₂ Hex h ds) (h2 : List.Forall₂ Hex h ds') : ds = ds' := by
  induction h1 generalizing ds' with
  | nil => cases h2; rfl
  | cons hx _ ih =>
    cases h2 with
    | cons hy ht =>
      rw [ih ht]
      congr 1
      unfold Hex at hx hy
      split_ifs at hx hy <;> omega

theorem number_cons (base d : Nat) (ds : List Nat) : number base (d :: ds) = d * base ^ ds.length + number base ds := by
  have := number_acc base ds (0 * base + d)
  rw [Nat.zero_mul, Nat.zero_add] at this
  rw [← this, number, List.foldl_cons, Nat.zero_mul, Nat.zero_add]

theorem number_lt (base : Nat) (b : List Nat) (h : ∀ d ∈ b, d < base) : number base b < base ^ b.length := by
  induction b with
  | nil => simp [number]
  | cons v b ih =>
    have hv := h v (by simp)
    have := ih fun d hd => h d (by simp [hd])
    rw [number_cons, List.length_cons, Nat.pow_succ]
    calc v * base ^ b.length + number base b < v * base ^ b.length + base ^ b.length := by omega
      _ = (v + 1) * base ^ b.length := by rw [Nat.succ_mul]
      _ ≤ base * base ^ b.length := Nat.mul_le_mul_right _ hv
      _ = base ^ b.length * base := Nat.mul_comm ..

theorem number_inj (base : Nat) : ∀ b b' : List Nat, (∀ d ∈ b, d < base) → (∀ d ∈ b', d < base) → b.length = b'.length →
    number base b = number base b' → b = b'
  | [], [], _, _, _, _ => rfl
  | v :: b, v' :: b', hb, hb', hl0, h => by
    have hl : b.length = b'.length := by simpa using hl0
    have l1 := number_lt base b fun d hd => hb d (by simp [hd])
    have l2 := number_lt base b' fun d hd => hb' d (by simp [hd])
    rw [number_cons, number_cons, hl] at h
    rw [hl] at l1
    have hp : 0 < base ^ b'.length := by omega
    have hv : v = v' := by
      have d1 : (v * base ^ b'.length + number base b) / base ^ b'.length = v := by
        rw [Nat.mul_comm, Nat.mul_add_div hp, Nat.div_eq_of_lt l1, Nat.add_zero]
      have d2 : (v' * base ^ b'.length + number base b') / base ^ b'.length = v' := by
        rw [Nat.mul_comm, Nat.mul_add_div hp, Nat.div_eq_of_lt l2, Nat.add_zero]
      rw [← d1, h, d2]
    subst hv
    rw [number_inj base b b' (fun d hd => hb d (by simp [hd])) (fun d hd => hb' d (by simp [hd])) hl (by omega)]

theorem bytes_inj (b b' : List UInt8) (hl : b.length = b'.length)
    (h : number 256 (b.map UInt8.toNat) = number 256 (b'.map UInt8.toNat)) : b = b' := by
  have small : ∀ l : List UInt8, ∀ d ∈ l.map UInt8.toNat, d < 256 := by
    intro l d hd
    obtain ⟨u, _, rfl⟩ := List.mem_map.1 hd
    exact u.toNat_lt
  have := number_inj 256 _ _ (small b) (small b') (by simpa using hl) h
  exact List.map_injective_iff.2 (fun _ _ => UInt8.toNat_inj.1) this

/-! ## C148 -/

/-- `hex.EncodeToString` writes the bytes as they should be. -/
theorem C148_hex (b : List UInt8) : HexOf b (encodeToString b) := by
  induction b with
  | nil => exact ⟨[], .nil, rfl, rfl⟩
  | cons v b ih =>
    obtain ⟨ds, h1, h2, h3⟩ := ih
    obtain ⟨s1, s2⟩ := shift_and v
    have hv := v.toNat_lt
    have e : encodeToString (v :: b) = hextable.getD (v >>> 4).toNat 0 :: hextable.getD (v &&& 15).toNat 0 :: encodeToString b := rfl
    refine ⟨v.toNat / 16 :: v.toNat % 16 :: ds, ?_, ?_, ?_⟩
    · rw [e, s1, s2]
      exact .cons (digit_hex ⟨v.toNat / 16, by omega⟩) (.cons (digit_hex ⟨v.toNat % 16, by omega⟩) h1)
    · rw [e]; simp only [List.length_cons]; omega
    · have l : ds.length = 2 * b.length := by rw [← h1.length_eq, h2]
      have e1 : number 16 (v.toNat / 16 :: v.toNat % 16 :: ds) = v.toNat * 16 ^ ds.length + number 16 ds := by
        rw [number_cons, number_cons, List.length_cons, Nat.pow_succ, Nat.mul_comm (16 ^ _) 16, ← Nat.mul_assoc, ← Nat.add_assoc, ← Nat.add_mul,
          show v.toNat / 16 * 16 + v.toNat % 16 = v.toNat by omega]
      have e2 : number 256 ((v :: b).map UInt8.toNat) = v.toNat * 256 ^ b.length + number 256 (b.map UInt8.toNat) := by
        rw [List.map_cons, number_cons, List.length_map]
      rw [e1, e2, h3, l, Nat.pow_mul]

theorem intoOr_of_into {U : Univ} {T R : U.Ty} {v o r : Value U} {c : Reg U} (h : into T R v c = .ret (r, true)) :
    intoOr T R v o c = .ret r := by
  unfold intoOr; rw [h]; rfl

theorem write_123456 : ConvNum.intToString ⟨true, 64⟩ 123456 = ascii "123456" := by
  have h : conv int64 123456 = 123456 := by decide
  rw [ConvNum.intToString, h]
  simp [formatInt, digits]
  decide

theorem write_5678 : formatInt 5678 = ascii "5678" := by
  simp [formatInt, digits]
  decide

theorem read_5678 : ConvNum.stringToInteger ⟨true, 32⟩ (ascii "5678") = 5678 := by decide

variable {bits : Nat} {hb : bits = 32 ∨ bits = 64} {S : Strconv} {impl : IntTy → Flt → Int}

local notation "E" => env bits hb S impl

theorem output_eq (buf : List UInt8) : output (bits := bits) (hb := hb) (S := S) (impl := impl) buf =
    .ret (some (ascii "123456\ntrue\n5678\n" ++ encodeToString buf ++ ascii "\ntrue true\n")) := by
  have l0 : Leaves E [] := by simp [Leaves]
  have l1 : Leaves E [.reg (ty E .bytes) tHex (some toHex)] := by
    intro o ho T R h
    simp only [List.mem_singleton] at ho
    subst ho
    exact nomatch h.2
  have e0 : run (init E ++ []) = (reg0 : Reg (univ E)) := by rw [List.append_nil]; rfl
  have e1 : run (init E ++ [.reg (ty E .bytes) tHex (some toHex)]) = (reg1 : Reg (univ E)) := by rw [run_snoc]; rfl
  have h1 := into_conv1 E [] l0 .int64 .string rfl _ rfl (123456 : Int)
  have h2 := into_conv1 E [] l0 .bool .string rfl _ rfl true
  have h3 := into_conv1 E [] l0 .string .int32 rfl _ rfl (ascii "5678")
  have h5 := into_conv1 E _ l1 .int64 .bool rfl _ rfl (1 : Int)
  rw [e0] at h1 h2 h3
  rw [e1] at h5
  have h4 : into (U := univ E) (ty E .bytes) tHex (some (box E .bytes buf)) reg1 = .ret (some (hexStr (encodeToString buf)), true) := by
    rw [into_eq, reg1, look_register, if_pos ⟨rfl, rfl⟩]
    rfl
  have hm : main (bits := bits) (hb := hb) (S := S) (impl := impl) buf =
      .ret [[some (box E .string (ConvNum.intToString ⟨true, 64⟩ 123456))], [some (box E .string (ConvNum.boolToString true))],
        [some (box E .int32 (ConvNum.stringToInteger ⟨true, 32⟩ (ascii "5678")))], [some (hexStr (encodeToString buf))],
        [some (box E .bool (ConvNum.intToBool ⟨true, 64⟩ 1)), some (box E .bool true)]] := by
    unfold main
    rw [intoOr_of_into h1, Outcome.bind_ret, intoOr_of_into h2, Outcome.bind_ret, intoOr_of_into h3, Outcome.bind_ret, intoOr_of_into h4,
      Outcome.bind_ret, h5, Outcome.bind_ret]
    rfl
  rw [output, hm, Outcome.bind_ret, write_123456, read_5678]
  have t1 : line [some (box E .string (ascii "123456"))] = some (ascii "123456" ++ [10]) := rfl
  have t2 : line [some (box E .string (ConvNum.boolToString true))] = some (ascii "true" ++ [10]) := rfl
  have t3 : line [some (box E .int32 (5678 : Int))] = some (ascii "5678" ++ [10]) := by rw [← write_5678]; simp [line, text, box]
  have t4 : line [some (hexStr (encodeToString buf) : (univ E).Dyn)] = some (encodeToString buf ++ [10]) := by simp [line, text, hexStr]
  have t5 : line [some (box E .bool (ConvNum.intToBool ⟨true, 64⟩ 1)), some (box E .bool true)] = some (ascii "true true" ++ [10]) := rfl
  simp only [List.mapM_cons, List.mapM_nil]
  erw [t1, t2, t3, t4, t5]
  have e : ascii "123456\ntrue\n5678\n" = ascii "123456" ++ [10] ++ (ascii "true" ++ [10]) ++ (ascii "5678" ++ [10]) := rfl
  have e' : ascii "\ntrue true\n" = [10] ++ (ascii "true true" ++ [10]) := rfl
  rw [e, e']
  simp

/-- **C148.** On every platform and whatever bytes `rand.Read` gives, the program prints these five lines: no conversion falls back
to its default, and the fourth line is the bytes in hexadecimal. -/
theorem C148_output (buf : List UInt8) :
    ∃ h, HexOf buf h ∧ output (bits := bits) (hb := hb) (S := S) (impl := impl) buf =
      .ret (some (ascii "123456\ntrue\n5678\n" ++ h ++ ascii "\ntrue true\n")) :=
  ⟨encodeToString buf, C148_hex buf, output_eq buf⟩

/-- The fourth line tells the bytes: no other bytes have the same. -/
theorem C148_unique {b b' h : List UInt8} (h1 : HexOf b h) (h2 : HexOf b' h) : b = b' := by
  obtain ⟨ds, a1, a2, a3⟩ := h1
  obtain ⟨ds', b1, b2, b3⟩ := h2
  obtain rfl := hex_unique a1 b1
  exact bytes_inj _ _ (by omega) (a3.symm.trans b3)

/-- What the example prints if all bytes are 255: the fourth line is 64 times `f`. -/
example : output (bits := bits) (hb := hb) (S := S) (impl := impl) (List.replicate 32 255) =
    .ret (some (ascii "123456\ntrue\n5678\n" ++ List.replicate 64 102 ++ ascii "\ntrue true\n")) := by
  rw [output_eq]
  rfl

end Verif.Demo
