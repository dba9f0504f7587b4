import Verif.ConvChain.Spec
import Verif.ConvInit.Props
/-!
# One step of a chain of conversions
-/
namespace Verif.ConvChain
open Verif.Go Verif.ConvNum Verif.ConvFloat Verif.ConvReg Verif.ConvInit

theorem canonical_decimal {s : List UInt8} {i : Int} (hc : Canonical s i) : Decimal s (decide (i < 0)) |(i : ℚ)| := by
  rcases hc with ⟨n, rfl, ⟨h1, h2, h3⟩, -⟩ | ⟨u, n, rfl, rfl, hn, ⟨h1, h2, h3⟩, -⟩
  · refine ⟨[], s, [], .inr (.inr ⟨rfl, by simp⟩), h2, by simp, by simpa using h1, .inr ⟨rfl, rfl⟩, ?_⟩
    simp [h3]
  · refine ⟨[45], u, [], .inl ⟨rfl, by simp; omega⟩, h2, by simp, by simpa using h1, .inr ⟨rfl, rfl⟩, ?_⟩
    simp [h3]

theorem nearest_self {F : Fmt} {q v : ℚ} (hq : Mag F q) (h : Nearest F q v) : v = q := by
  have := h.2.1 q hq
  rw [sub_self, abs_zero] at this
  have := abs_nonpos_iff.1 this
  linarith

theorem mag_lt_limit {F : Fmt} (hF : F.IsGo) {q : ℚ} (h : Mag F q) : q < limit F := by
  have hg := isGo_p hF
  by_contra hc
  have := (overflow_iff (F := F) (by omega) (by omega) (mag_nonneg h)).2 (not_lt.1 hc)
  rw [roundMag_mag h] at this
  exact absurd (mag_lt h) (not_lt.2 this)

theorem valid_of (E : Env) {i : Int} {k : Kind} {x : KVal k} (h : Holds i k x) (hc : Can i k) : Valid k x := by
  cases k with
  | int t =>
    have : x = i := h
    subst this
    exact hc
  | flt F =>
    have : x = Flt.fin (decide (i < 0)) |(i : ℚ)| := h
    subst this
    exact hc
  | str => trivial
  | bool => trivial
  | bytes => trivial
  | runes => exact h.elim

theorem step_holds (E : Env) {i : Int} {k k' : Kind} (gk' : GoKind k') {x : KVal k} {y : KVal k'} (h : Holds i k x)
    (hc : Can i k) (hc' : Can i k') (hfs : ¬ (isFloat k = true ∧ k' = .str)) (hm : Means E k k' x y) : Holds i k' y := by
  cases k with
  | int t =>
    have hx : x = i := h
    subst hx
    cases k' with
    | int r => exact inTy_unique (go_bits gk').1 hm.1 hc' hm.2
    | flt F =>
      obtain ⟨v, rfl, hv⟩ := hm
      rw [nearest_self hc' hv]; rfl
    | str => exact hm
    | bool => exact hc'.elim
    | bytes => exact hc'.elim
    | runes => exact hc'.elim
  | flt F =>
    have hx : x = Flt.fin (decide (i < 0)) |(i : ℚ)| := h
    cases k' with
    | int r =>
      refine hm _ _ i hx hc' (le_refl _) (by linarith) (fun h => ?_) (fun h => ?_)
      · simp; omega
      · simpa using h
    | flt F' =>
      rcases hm.2.2 _ _ hx with ⟨_, v, rfl, hv⟩ | ⟨hl, _⟩
      · rw [nearest_self hc' hv]; rfl
      · exact absurd (mag_lt_limit gk' hc') (not_lt.2 hl)
    | str => exact absurd ⟨rfl, rfl⟩ hfs
    | bool => exact hc'.elim
    | bytes => exact hc'.elim
    | runes => exact hc'.elim
  | str =>
    have hx : Canonical x i := h
    cases k' with
    | int r => exact hm i hx hc'
    | flt F => exact hm _ _ (canonical_decimal hx) hc'
    | str =>
      have : y = x := hm
      subst this
      exact hx
    | bool => exact hc'.elim
    | bytes => exact hc'.elim
    | runes => exact hc'.elim
  | bool => exact h.elim
  | bytes => exact h.elim
  | runes => exact h.elim

theorem can_basic (E : Env) {i : Int} {T : B} (h : Can i (kind E T)) : T ≠ .bytes ∧ T ≠ .runes ∧ T ≠ .bool := by
  refine ⟨?_, ?_, ?_⟩ <;> rintro rfl <;> exact h.elim

theorem way_head (E : Env) {i : Int} {T : B} {Rs : List B} (h : Way E i T Rs) : Can i (kind E T) := by
  cases Rs with
  | nil => exact h
  | cons R Rs => exact h.1

theorem kind_str (E : Env) {T : B} (h : kind E T = .str) : T = .string := by
  cases T <;> simp [kind] at h <;> rfl

theorem chain_holds (E : Env) (h : List (Op (univ E))) (hl : Leaves E h) {i : Int} : ∀ (Rs : List B) (T : B) (x : Val E T),
    Way E i T Rs → Holds i (kind E T) x →
    ∃ y : Val E ((T :: Rs).getLast (by simp)), Holds i _ y ∧
      chain E (run (init E ++ h)) (some (box E T x)) T Rs = .ret (some (box E _ y), true)
  | [], T, x, _, hx => ⟨x, hx, rfl⟩
  | R :: Rs, T, x, hw, hx => by
    have hT := can_basic E hw.1
    have hcR := way_head E hw.2.2
    have hR := can_basic E hcR
    obtain ⟨_, hi, _⟩ := C85_builtin E h T R fun o ho => hl o ho T R
    obtain ⟨y, hm, hy⟩ := hi (C85_all_basic T R ⟨hT.1, hT.2.1⟩ ⟨hR.1, hR.2.1⟩) x (valid_of E hx hw.1)
    have hy' := step_holds E (goKind E R) hx hw.1 hcR (fun hc => hw.2.1 ⟨hc.1, kind_str E hc.2⟩) hm
    obtain ⟨z, hz, e⟩ := chain_holds E h hl Rs R y hw.2.2 hy'
    refine ⟨z, hz, ?_⟩
    rw [chain, hy, Outcome.bind_ret, if_pos rfl]
    exact e

theorem holds_unique {i : Int} {k : Kind} {x y : KVal k} (hx : Holds i k x) (hy : Holds i k y) : x = y := by
  cases k with
  | int t => exact Eq.trans (show x = i from hx) (show y = i from hy).symm
  | flt F => exact Eq.trans (show x = Flt.fin (decide (i < 0)) |(i : ℚ)| from hx) (show y = Flt.fin (decide (i < 0)) |(i : ℚ)| from hy).symm
  | str => exact canonical_unique hx hy
  | bool => exact hx.elim
  | bytes => exact hx.elim
  | runes => exact hx.elim

theorem bool_holds (E : Env) {b : Bool} {k : Kind} (hs : k ≠ .str) (hc : Can (bit b) k) {x : KVal k}
    (hm : Means E .bool k b x) : Holds (bit b) k x := by
  cases k with
  | int t => exact hm
  | flt F =>
    have : x = Flt.fin false (bit b) := hm
    subst this
    cases b
    · show Flt.fin false _ = Flt.fin _ _
      simp [bit]
    · show Flt.fin false _ = Flt.fin _ _
      simp [bit]
  | str => exact absurd rfl hs
  | bool => exact hc.elim
  | bytes => exact hc.elim
  | runes => exact hc.elim

theorem bit_int : ∀ b c : Bool, (c = true ↔ (bit b : Int) ≠ 0) → c = b := by decide

theorem bit_flt (b c : Bool) (h : c = false ↔ Flt.fin (decide (bit b < 0)) |((bit b : Int) : ℚ)| = Flt.fin false 0 ∨
    Flt.fin (decide (bit b < 0)) |((bit b : Int) : ℚ)| = Flt.fin true 0) : c = b := by
  revert h
  cases b <;> cases c <;> simp [bit]

theorem holds_bool (E : Env) {b c : Bool} {k : Kind} (hs : k ≠ .str) {x : KVal k} (hx : Holds (bit b) k x)
    (hm : Means E k .bool x c) : c = b := by
  cases k with
  | int t =>
    have e : x = bit b := hx
    subst e
    exact bit_int b c hm
  | flt F =>
    have e : x = Flt.fin (decide (bit b < 0)) |((bit b : Int) : ℚ)| := hx
    subst e
    exact bit_flt b c hm
  | str => exact absurd rfl hs
  | bool => exact hx.elim
  | bytes => exact hx.elim
  | runes => exact hx.elim

theorem way_last (E : Env) {i : Int} : ∀ {Rs : List B} {T : B}, Way E i T Rs → Can i (kind E ((T :: Rs).getLast (by simp)))
  | [], _, h => h
  | _ :: _, _, h => by
    have := way_last E h.2.2
    simpa using this

theorem chain_append (E : Env) (c : Reg (univ E)) (Ss : List B) (w : Value (univ E)) : ∀ (Rs : List B) (T : B) {v : Value (univ E)},
    chain E c v T Rs = .ret (w, true) → chain E c v T (Rs ++ Ss) = chain E c w ((T :: Rs).getLast (by simp)) Ss
  | [], T, v, h => by
    simp only [chain, Outcome.ret_inj, Prod.mk.injEq, and_true] at h
    subst h
    rfl
  | R :: Rs, T, v, h => by
    rw [List.cons_append, chain]
    rw [chain] at h
    cases hi : into (U := univ E) (ty E T) (ty E R) v c with
    | ret p =>
      rw [hi, Outcome.bind_ret] at h
      rw [Outcome.bind_ret]
      by_cases hp : p.2 = true
      · rw [if_pos hp] at h ⊢
        rw [chain_append E c Ss w Rs R h]
        simp
      · rw [if_neg hp] at h
        simp only [Outcome.ret_inj] at h
        exact absurd (by rw [h]) hp
    | panic => rw [hi] at h; cases h
    | hang => rw [hi] at h; cases h

theorem zero_in (t : IntTy) : InTy t 0 := by
  unfold InTy
  have h1 : (0 : Int) < 2 ^ (t.bits - 1) := by positivity
  have h2 : (0 : Int) < 2 ^ t.bits := by positivity
  split <;> omega

theorem two_le_pow {b : Nat} (h : 1 ≤ b) : (2 : Int) ≤ 2 ^ b := by
  calc (2 : Int) = 2 ^ 1 := by norm_num
    _ ≤ 2 ^ b := pow_le_pow_right₀ (by norm_num) h

/-- A value of the one type that is next to the values of the other. -/
theorem beside {t m : IntTy} (bt : 1 ≤ t.bits) (bm : 1 ≤ m.bits) (h : ¬ Sub t m) :
    ∃ b, InTy t b ∧ (conv m b - b = 2 ^ m.bits ∨ conv m b - b = -2 ^ m.bits) := by
  unfold Sub at h
  push Not at h
  obtain ⟨x, hx, hn⟩ := h
  have h1 : (0 : Int) < 2 ^ (t.bits - 1) := by positivity
  have h2 : (0 : Int) < 2 ^ (m.bits - 1) := by positivity
  have pt := pow_split bt
  have pm := pow_split bm
  have conv_eq : ∀ b y, InTy m y → (y - b = 2 ^ m.bits ∨ y - b = -2 ^ m.bits) → conv m b = y := fun b y hy hd => by
    refine inTy_unique bm (conv_spec bm b).1 hy ?_
    have h3 := (conv_spec bm b).2
    have h4 : (2 : Int) ^ m.bits ∣ y - b := by
      rcases hd with hd | hd <;> rw [hd]
      exact (Int.dvd_neg).2 (Int.dvd_refl _)
    have := Int.dvd_sub h3 h4
    rwa [show conv m b - b - (y - b) = conv m b - y by ring] at this
  have mk : ∀ b y, InTy t b → InTy m y → (y - b = 2 ^ m.bits ∨ y - b = -2 ^ m.bits) →
      ∃ b, InTy t b ∧ (conv m b - b = 2 ^ m.bits ∨ conv m b - b = -2 ^ m.bits) := fun b y hb hy hd =>
    ⟨b, hb, by rw [conv_eq b y hy hd]; exact hd⟩
  cases hs : m.signed with
  | true =>
    have hm : ∀ y, InTy m y ↔ -2 ^ (m.bits - 1) ≤ y ∧ y < 2 ^ (m.bits - 1) := fun y => by unfold InTy; rw [if_pos hs]
    rw [hm] at hn
    by_cases hlo : x < 0
    · refine mk (-2 ^ (m.bits - 1) - 1) (2 ^ (m.bits - 1) - 1) ?_ ((hm _).2 (by omega)) (.inl (by omega))
      unfold InTy at hx ⊢
      split at hx <;> rename_i ht
      · rw [if_pos ht]; omega
      · rw [if_neg ht]; omega
    · refine mk (2 ^ (m.bits - 1)) (-2 ^ (m.bits - 1)) ?_ ((hm _).2 (by omega)) (.inr (by omega))
      unfold InTy at hx ⊢
      split at hx <;> rename_i ht
      · rw [if_pos ht]; omega
      · rw [if_neg ht]; omega
  | false =>
    have hm : ∀ y, InTy m y ↔ 0 ≤ y ∧ y < 2 ^ m.bits := fun y => by unfold InTy; rw [if_neg (by simp [hs])]
    rw [hm] at hn
    by_cases hlo : x < 0
    · refine mk (-1) (2 ^ m.bits - 1) ?_ ((hm _).2 (by omega)) (.inl (by omega))
      unfold InTy at hx ⊢
      split at hx <;> rename_i ht
      · rw [if_pos ht]; omega
      · rw [if_neg ht]; omega
    · refine mk (2 ^ m.bits) 0 ?_ ((hm _).2 (by omega)) (.inr (by omega))
      unfold InTy at hx ⊢
      split at hx <;> rename_i ht
      · rw [if_pos ht]; omega
      · rw [if_neg ht]; omega

theorem twice_rounded : floatToFloat f32 (integerToFloat f64 (2 ^ 60 + 2 ^ 36 + 1)) = .fin false (2 ^ 60) := by
  have h64 : roundMag f64 ((2 : ℚ) ^ 60 + 2 ^ 36 + 1) = 2 ^ 60 + 2 ^ 36 := by
    rw [roundMag_eval f64 (l := 60) (k := 8) (by norm_num) (by norm_num) (by decide)]
    have hfl : ⌊((2 : ℚ) ^ 60 + 2 ^ 36 + 1) / 2 ^ (8 : Int)⌋ = 2 ^ 52 + 2 ^ 28 := by
      rw [Int.floor_eq_iff]; constructor <;> norm_num
    unfold roundEven
    rw [hfl, if_pos (by norm_num)]
    norm_num
  have h32 : roundMag f32 ((2 : ℚ) ^ 60 + 2 ^ 36) = 2 ^ 60 := by
    rw [roundMag_eval f32 (l := 60) (k := 37) (by norm_num) (by norm_num) (by decide)]
    have hfl : ⌊((2 : ℚ) ^ 60 + 2 ^ 36) / 2 ^ (37 : Int)⌋ = 2 ^ 23 := by
      rw [Int.floor_eq_iff]; constructor <;> norm_num
    unfold roundEven
    rw [hfl, if_neg (by norm_num), if_neg (by norm_num), if_pos (by norm_num)]
    norm_num
  have e1 : integerToFloat f64 (2 ^ 60 + 2 ^ 36 + 1) = .fin false (2 ^ 60 + 2 ^ 36) := by
    unfold integerToFloat toFlt
    have e : |(((2 : Int) ^ 60 + 2 ^ 36 + 1 : Int) : ℚ)| = (2 : ℚ) ^ 60 + 2 ^ 36 + 1 := by rw [abs_of_nonneg] <;> norm_num
    rw [e, h64, if_neg]
    · rfl
    · rw [not_le]
      have : (2 : ℚ) ^ (f64.emax + f64.p) = 2 ^ (1024 : Int) := by rfl
      rw [this]
      have h61 : (2 : ℚ) ^ 60 + 2 ^ 36 < 2 ^ (61 : Int) := by norm_num
      exact lt_trans h61 (zpow_lt_zpow_right₀ (by norm_num) (by norm_num))
  rw [e1]
  unfold floatToFloat toFlt
  simp only
  rw [h32, if_neg]
  rw [not_le]
  have : (2 : ℚ) ^ (f32.emax + f32.p) = 2 ^ (128 : Int) := by rfl
  rw [this]
  norm_num

theorem into_conv1 (E : Env) (h : List (Op (univ E))) (hl : Leaves E h) (T R : B) (hh : Has T R = true) (f : Val E T → Val E R)
    (hf : conv1 E T R = some f) (x : Val E T) :
    into (U := univ E) (ty E T) (ty E R) (some (box E T x)) (run (init E ++ h)) = .ret (some (box E R (f x)), true) := by
  have hl := look_lastOp (U := univ E) (init E ++ h) (ty E T) (ty E R) rfl rfl
  rw [lastOp_append _ _ _ _ fun o ho => ‹Leaves E h› o ho T R, lastOp_init] at hl
  have hkT : ∀ x, typeOf (some (box E T x) : Value (univ E)) = key (univ E) (ty E T) := fun x => rfl
  rw [into_eq, hkT, hl, if_pos hh]
  simp only [Option.bind_some, reg, entryOf, hf, Option.map_some, and_self, if_true]
  simp [lift, box]

theorem conv1_write (E : Env) (T : B) (t : IntTy) (hk : kind E T = .int t) : ∃ f : Val E T → List UInt8,
    conv1 E T .string = some f ∧ ∀ x i, num (kind E T) x = some i → f x = written t i := by
  cases T <;> first
    | (cases hk; done)
    | (cases hk
       refine ⟨_, rfl, fun x i hi => ?_⟩
       have : x = i := Option.some.inj hi
       subst this
       rfl)

theorem conv1_read (E : Env) (R : B) (r : IntTy) (hk : kind E R = .int r) : ∃ f : List UInt8 → Val E R,
    conv1 E .string R = some f ∧ ∀ s, num (kind E R) (f s) =
      some (if r.signed then ConvNum.stringToInteger r s else ConvNum.stringToUinteger r s) := by
  cases R <;> first
    | (cases hk; done)
    | (cases hk
       exact ⟨_, rfl, fun s => rfl⟩)

theorem conv1_int (E : Env) (T R : B) (t r : IntTy) (hk : kind E T = .int t) (hk' : kind E R = .int r) :
    ∃ f : Val E T → Val E R, conv1 E T R = some f ∧ ∀ x i, num (kind E T) x = some i → num (kind E R) (f x) =
      some (ConvNum.integerToInteger t r i) := by
  cases T <;> first
    | (cases hk; done)
    | (cases R <;> first
       | (cases hk'; done)
       | (cases hk
          cases hk'
          refine ⟨_, rfl, fun x i hi => ?_⟩
          have : x = i := Option.some.inj hi
          subst this
          rfl))

end Verif.ConvChain
