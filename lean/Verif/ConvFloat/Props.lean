import Verif.ConvFloat.Lemmas
import Verif.ConvNum.Props
/-!
# Conversions of floats: properties C86, C87
-/
namespace Verif.ConvFloat
open Verif.ConvNum

/-! ## C86 -/

theorem mag_ieee {F : Fmt} {w f : Nat} (hp : F.p = f + 1) (hmin : F.emin = 1 - (2 ^ (w - 1) - 1 : Int) - f)
    (hmax : F.emax = (2 ^ w - 2 : Nat) - (2 ^ (w - 1) - 1 : Int) - f) (hw : 3 ≤ 2 ^ w) (q : ℚ) :
    Mag F q ↔ ∃ E M, E < 2 ^ w - 1 ∧ M < 2 ^ f ∧ q = ieee w f E M := by
  generalize hb : (2 ^ (w - 1) - 1 : Int) = b at hmin hmax
  have hie : ∀ E M : Nat, ieee w f E M = if E = 0 then M * (2 : ℚ) ^ (1 - b - f) else (2 ^ f + M) * (2 : ℚ) ^ ((E : Int) - b - f) := by
    intro E M; rw [← hb]; rfl
  have h2 : (2 : Nat) ^ (f + 1) = 2 * 2 ^ f := by rw [pow_succ]; ring
  constructor
  · rintro ⟨m, e, hm, h1, h3, rfl⟩
    rw [hp, h2] at hm
    obtain ⟨n, hn⟩ : ∃ n : Nat, e = F.emin + n := ⟨(e - F.emin).toNat, by omega⟩
    induction n generalizing m e with
    | zero =>
      by_cases h : m < 2 ^ f
      · refine ⟨0, m, by omega, h, ?_⟩
        rw [hie, if_pos rfl, hn, hmin]; simp
      · refine ⟨1, m - 2 ^ f, ?_, by omega, ?_⟩
        · by_contra hc
          have : 2 ^ w - 2 = 0 := by omega
          rw [this] at hmax
          push_cast at hmax hn
          omega
        · rw [hie, if_neg (by decide), hn, hmin, Nat.cast_sub (by omega)]
          push_cast
          rw [show (1 - b - (f : Int) + 0) = 1 - b - f by ring]
          ring
    | succ n ih =>
      by_cases h : m < 2 ^ f
      · obtain ⟨E, M, hE, hM, he⟩ := ih (2 * m) (e - 1) (by omega) (by omega) (by omega) (by push_cast at hn; omega)
        refine ⟨E, M, hE, hM, ?_⟩
        rw [← he, zpow_sub_one₀ (by norm_num)]
        push_cast
        ring
      · refine ⟨(e + b + f).toNat, m - 2 ^ f, ?_, by omega, ?_⟩
        · push_cast at hn; omega
        · rw [hie, if_neg (by push_cast at hn; omega), Nat.cast_sub (by omega)]
          have : ((e + b + f).toNat : Int) - b - f = e := by push_cast at hn; omega
          rw [this]
          push_cast
          ring
  · rintro ⟨E, M, hE, hM, rfl⟩
    rw [hie]
    split
    · refine ⟨M, F.emin, by rw [hp, h2]; omega, le_refl _, ?_, by rw [hmin]⟩
      omega
    · refine ⟨2 ^ f + M, (E : Int) - b - f, by rw [hp, h2]; omega, by omega, by omega, by push_cast; ring⟩

/-- C86: the two formats are those of IEEE 754: 11 and 52 bits, 8 and 23 bits. -/
theorem C86_formats (q : ℚ) : (Mag f64 q ↔ ∃ E M, E < 2047 ∧ M < 2 ^ 52 ∧ q = ieee 11 52 E M) ∧
    (Mag f32 q ↔ ∃ E M, E < 255 ∧ M < 2 ^ 23 ∧ q = ieee 8 23 E M) :=
  ⟨mag_ieee (F := f64) (w := 11) (f := 52) rfl (by norm_num [f64]) (by norm_num [f64]) (by norm_num) q,
   mag_ieee (F := f32) (w := 8) (f := 23) rfl (by norm_num [f32]) (by norm_num [f32]) (by norm_num) q⟩

/-- C86 in full: integers survive the trip through a float type. -/
def C86_full : Prop := ∀ (t : IntTy) (F : Fmt) (impl : Flt → Int) (i : Int), t.IsGo → F.IsGo → InTy t i →
  floatToInteger t impl (integerToFloat F i) = i

/-- C86: an integer becomes the nearest float, of two the even one; it is never infinite. -/
theorem C86_nearest (F : Fmt) (hF : F.IsGo) (i : Int) (hi : |(i : ℚ)| < 2 ^ 64) :
    ∃ v, integerToFloat F i = .fin (decide (i < 0)) v ∧ Nearest F |(i : ℚ)| v := by
  have hg := isGo_p hF
  have hq : 0 ≤ |(i : ℚ)| := abs_nonneg _
  have h1 : ¬ 2 ^ (F.emax + F.p) ≤ roundMag F |(i : ℚ)| := by
    rw [overflow_iff (by omega) (by omega) hq, not_le]
    exact int_lt_limit hF hi
  refine ⟨roundMag F |(i : ℚ)|, ?_, roundMag_nearest (by omega) (by omega) hq (not_le.1 h1)⟩
  unfold integerToFloat toFlt
  rw [if_neg h1]

theorem trunc_int (t : IntTy) (impl : Flt → Int) (i : Int) (hi : InTy t i) :
    floatToInteger t impl (.fin (decide (i < 0)) |(i : ℚ)|) = i := by
  have : (if decide (i < 0) then -⌊|(i : ℚ)|⌋ else ⌊|(i : ℚ)|⌋) = i := by
    rw [← Int.cast_abs, Int.floor_intCast]
    by_cases h : i < 0
    · simp [h, abs_of_neg h]
    · simp [h, abs_of_nonneg (not_lt.1 h)]
  simp only [floatToInteger]
  rw [this, if_pos ((fits_iff t i).2 hi)]

/-- C86 for the integers that are floats. -/
theorem C86_exact (t : IntTy) (F : Fmt) (impl : Flt → Int) (i : Int) (hi : InTy t i) (hm : Mag F |(i : ℚ)|) :
    integerToFloat F i = .fin (decide (i < 0)) |(i : ℚ)| ∧ floatToInteger t impl (integerToFloat F i) = i := by
  have : integerToFloat F i = .fin (decide (i < 0)) |(i : ℚ)| := toFlt_mag hm
  exact ⟨this, by rw [this]; exact trunc_int t impl i hi⟩

/-- Integers of at most `p` bits are floats. -/
theorem mag_small {F : Fmt} (hF : F.IsGo) {i : Int} (h : |i| < 2 ^ F.p) : Mag F |(i : ℚ)| := by
  have hg := isGo_p hF
  refine ⟨i.natAbs, 0, ?_, by omega, by omega, ?_⟩
  · have : ((2 ^ F.p : Nat) : Int) = 2 ^ F.p := by push_cast; rfl
    rw [Int.abs_eq_natAbs] at h
    omega
  · rw [zpow_zero, mul_one, ← Int.cast_abs, Int.abs_eq_natAbs, Int.cast_natCast]

/-- C86 for the integer types that have no more bits than the float has digits: 32 bits and below for float64, 16 and below for
float32. Missing: the wider types (`C86_refuted`). -/
theorem C86_round_trip_partial (t : IntTy) (F : Fmt) (hF : F.IsGo) (ht : t.IsGo) (hb : t.bits ≤ F.p) (impl : Flt → Int) (i : Int)
    (hi : InTy t i) : floatToInteger t impl (integerToFloat F i) = i := by
  refine (C86_exact t F impl i hi (mag_small hF ?_)).2
  have hg := (go_bits ht).1
  have h1 : (2 : Int) ^ t.bits ≤ 2 ^ F.p := pow_le_pow_right₀ (by norm_num) hb
  have h2 : (2 : Int) ^ t.bits = 2 * 2 ^ (t.bits - 1) := by rw [← pow_succ']; congr 1; omega
  have h3 : (0 : Int) < 2 ^ (t.bits - 1) := by positivity
  unfold InTy at hi
  rw [abs_lt]
  split at hi <;> omega

/-- C86: the order of integers is kept. -/
theorem C86_monotone (F : Fmt) (hF : F.IsGo) (i j : Int) (hi : |(i : ℚ)| < 2 ^ 64) (hj : |(j : ℚ)| < 2 ^ 64) (h : i ≤ j) :
    le (integerToFloat F i) (integerToFloat F j) := by
  have hg := isGo_p hF
  have ev : ∀ i : Int, |(i : ℚ)| < 2 ^ 64 → integerToFloat F i = .fin (decide (i < 0)) (roundMag F |(i : ℚ)|) := by
    intro i hi
    unfold integerToFloat toFlt
    rw [if_neg]
    rw [overflow_iff (by omega) (by omega) (abs_nonneg _), not_le]
    exact int_lt_limit hF hi
  rw [ev i hi, ev j hj]
  unfold le
  have hq : (i : ℚ) ≤ j := by exact_mod_cast h
  by_cases h1 : i < 0 <;> by_cases h2 : j < 0
  · have a1 : (i : ℚ) < 0 := by exact_mod_cast h1
    have a2 : (j : ℚ) < 0 := by exact_mod_cast h2
    simp only [h1, h2, decide_true, if_true]
    exact neg_le_neg (roundMag_mono (by omega) (abs_nonneg _) (by rw [abs_of_neg a1, abs_of_neg a2]; linarith))
  · simp only [h1, h2, decide_true, decide_false, if_true, Bool.false_eq_true, if_false]
    have := roundMag_nonneg F (abs_nonneg (i : ℚ))
    have := roundMag_nonneg F (abs_nonneg (j : ℚ))
    linarith
  · omega
  · have a1 : (0 : ℚ) ≤ i := by exact_mod_cast not_lt.1 h1
    have a2 : (0 : ℚ) ≤ j := by exact_mod_cast not_lt.1 h2
    simp only [h1, h2, decide_false, Bool.false_eq_true, if_false]
    exact roundMag_mono (by omega) (abs_nonneg _) (by rw [abs_of_nonneg a1, abs_of_nonneg a2]; exact hq)

/-- C86: a float becomes an integer by dropping the fraction, when that fits. -/
theorem C86_truncates (t : IntTy) (impl : Flt → Int) (n : Bool) (q : ℚ) (z : Int) (hz : InTy t z) (h1 : |(z : ℚ)| ≤ q)
    (h2 : q < |(z : ℚ)| + 1) (hp : 0 < z → n = false) (hn : z < 0 → n = true) : floatToInteger t impl (.fin n q) = z := by
  have hfl : ⌊q⌋ = |z| := by
    rw [Int.floor_eq_iff]; push_cast; exact ⟨h1, h2⟩
  have : (if n then -⌊q⌋ else ⌊q⌋) = z := by
    rw [hfl]
    cases n with
    | false =>
      have : ¬ z < 0 := fun h => by simpa using hn h
      simp [abs_of_nonneg (not_lt.1 this)]
    | true =>
      have : ¬ 0 < z := fun h => by simpa using hp h
      simp [abs_of_nonpos (not_lt.1 this)]
  simp only [floatToInteger]
  rw [this, if_pos ((fits_iff t z).2 hz)]

theorem mag_f32_f64 {q : ℚ} (h : Mag f32 q) : Mag f64 q := by
  obtain ⟨m, e, hm, h1, h2, rfl⟩ := h
  exact ⟨m, e, lt_of_lt_of_le hm (Nat.pow_le_pow_right (by norm_num) (by decide)), le_trans (by decide) h1, le_trans h2 (by decide), rfl⟩

/-- C86, between float types: float32 values are float64 values and come back unchanged; a float64 becomes the nearest float32, or
infinite from the limit on. -/
theorem C86_floats : (∀ x, IsFlt f32 x → floatToFloat f64 x = x ∧ floatToFloat f32 (floatToFloat f64 x) = x) ∧
    ∀ n q, 0 ≤ q → (q < limit f32 ∧ ∃ v, floatToFloat f32 (.fin n q) = .fin n v ∧ Nearest f32 q v) ∨
      (limit f32 ≤ q ∧ floatToFloat f32 (.fin n q) = .inf n) := by
  refine ⟨fun x hx => ?_, fun n q hq => ?_⟩
  · cases x with
    | nan => exact ⟨rfl, rfl⟩
    | inf n => exact ⟨rfl, rfl⟩
    | fin n q =>
      have h : floatToFloat f64 (.fin n q) = .fin n q := toFlt_mag (mag_f32_f64 hx)
      exact ⟨h, by rw [h]; exact toFlt_mag hx⟩
  · by_cases h : limit f32 ≤ q
    · refine .inr ⟨h, ?_⟩
      unfold floatToFloat toFlt
      simp only
      rw [if_pos ((overflow_iff (by decide) (by decide) hq).2 h)]
    · refine .inl ⟨not_le.1 h, roundMag f32 q, ?_, ?_⟩
      · unfold floatToFloat toFlt
        simp only
        rw [if_neg (fun g => h ((overflow_iff (by decide) (by decide) hq).1 g))]
      · refine roundMag_nearest (by decide) (by decide) hq (not_le.1 fun g => h ((overflow_iff (by decide) (by decide) hq).1 g))

/-- C86, booleans: NaN and the infinities count as true, both zeros as false. -/
theorem C86_bool (F : Fmt) (b : Bool) : floatToBool (boolToFloat F b) = b ∧
    (∀ n q, floatToBool (.fin n q) = true ↔ q ≠ 0) ∧ floatToBool .nan = true ∧ (∀ n, floatToBool (.inf n) = true) ∧
    boolToFloat F b = integerToFloat f64 (boolToInteger int64 b) := by
  refine ⟨by cases b <;> simp [boolToFloat, floatToBool], by simp [floatToBool], rfl, fun _ => rfl, ?_⟩
  have h := (C66_bool int64 (.inr (.inr (.inr rfl))) b 0).2.1
  rw [h]
  have e : ∀ i : Int, |i| < 2 ^ 53 → integerToFloat f64 i = .fin (decide (i < 0)) |(i : ℚ)| := fun i hi =>
    toFlt_mag (mag_small (.inl rfl) hi)
  cases b
  · rw [e _ (by norm_num)]; simp [boolToFloat]
  · rw [e _ (by norm_num)]; simp [boolToFloat]

theorem big_odd : integerToFloat f64 (2 ^ 53 + 1) = .fin false (2 ^ 53) := by
  have hr : roundMag f64 ((2 : ℚ) ^ 53 + 1) = 2 ^ 53 := by
    rw [roundMag_eval f64 (l := 53) (k := 1) (by norm_num) (by norm_num) (by decide)]
    have hfl : ⌊((2 : ℚ) ^ 53 + 1) / 2 ^ (1 : Int)⌋ = 2 ^ 52 := by
      rw [Int.floor_eq_iff]; constructor <;> norm_num
    unfold roundEven
    rw [hfl, if_neg (by norm_num), if_neg (by norm_num), if_pos (by norm_num)]
    norm_num
  unfold integerToFloat toFlt
  have e : |(((2 : Int) ^ 53 + 1 : Int) : ℚ)| = (2 : ℚ) ^ 53 + 1 := by rw [abs_of_nonneg] <;> norm_num
  rw [e, hr, if_neg]
  · rfl
  · rw [not_le]
    have : (2 : ℚ) ^ (f64.emax + f64.p) = 2 ^ (1024 : Int) := by rfl
    rw [this]
    exact (by rw [← zpow_natCast]; exact zpow_lt_zpow_right₀ (by norm_num) (by norm_num))

/-- 2^53 + 1 comes back as 2^53. -/
theorem C86_refuted : ¬ C86_full := by
  intro hc
  have h := hc int64 f64 (fun _ => 0) (2 ^ 53 + 1) (.inr (.inr (.inr rfl))) (.inl rfl) (by unfold InTy int64; norm_num)
  rw [big_odd] at h
  have h2 := C86_truncates int64 (fun _ => 0) false (2 ^ 53) (2 ^ 53) (by unfold InTy int64; norm_num)
    (by norm_num [abs_of_nonneg]) (by norm_num [abs_of_nonneg]) (by norm_num) (by norm_num)
  rw [h2] at h
  norm_num at h

/-- Worse, the largest int64 becomes 2^63, which is no int64: what comes back is up to the implementation. -/
theorem C86_refuted_max (impl : Flt → Int) :
    floatToInteger int64 impl (integerToFloat f64 (2 ^ 63 - 1)) = impl (.fin false (2 ^ 63)) := by
  have hr : roundMag f64 ((2 : ℚ) ^ 63 - 1) = 2 ^ 63 := by
    rw [roundMag_eval f64 (l := 62) (k := 10) (by norm_num) (by norm_num) (by decide)]
    have hfl : ⌊((2 : ℚ) ^ 63 - 1) / 2 ^ (10 : Int)⌋ = 2 ^ 53 - 1 := by
      rw [Int.floor_eq_iff]; constructor <;> norm_num
    unfold roundEven
    rw [hfl, if_neg (by norm_num), if_pos (by norm_num)]
    norm_num
  have : integerToFloat f64 (2 ^ 63 - 1) = .fin false (2 ^ 63) := by
    unfold integerToFloat toFlt
    have e : |(((2 : Int) ^ 63 - 1 : Int) : ℚ)| = (2 : ℚ) ^ 63 - 1 := by rw [abs_of_nonneg] <;> norm_num
    rw [e, hr, if_neg]
    · rfl
    · rw [not_le]
      have : (2 : ℚ) ^ (f64.emax + f64.p) = 2 ^ (1024 : Int) := by rfl
      rw [this]
      exact (by rw [← zpow_natCast]; exact zpow_lt_zpow_right₀ (by norm_num) (by norm_num))
  rw [this]
  have hfl : ⌊(2 : ℚ) ^ 63⌋ = 2 ^ 63 := by rw [Int.floor_eq_iff]; constructor <;> norm_num
  simp only [floatToInteger, Bool.false_eq_true, if_false]
  rw [hfl, if_neg]
  rw [fits_iff]; unfold InTy int64; norm_num

/-- An integer for `C86_exact` beyond 2^53: 3 * 2^60 as an uint64. -/
example : InTy uint64 (3 * 2 ^ 60) ∧ Mag f64 |((3 * 2 ^ 60 : Int) : ℚ)| := by
  refine ⟨by unfold InTy uint64; norm_num, 3, 60, by decide, by decide, by decide, ?_⟩
  rw [abs_of_nonneg] <;> norm_num

/-- -3.75 for `C86_truncates`. -/
example : floatToInteger int64 (fun _ => 0) (.fin true (15 / 4)) = -3 :=
  C86_truncates _ _ _ _ _ (by unfold InTy int64; norm_num) (by norm_num [abs_of_nonneg]) (by norm_num [abs_of_nonneg]) (by norm_num) (by simp)

example : IsFlt f32 (.fin true (3 / 4)) := ⟨3, -2, by decide, by decide, by decide, by norm_num⟩

/-! ## C87 -/

/-- `x` is the float nearest to a number, infinite from the limit on. -/
def NearestFlt (F : Fmt) (n : Bool) (q : ℚ) (x : Flt) : Prop :=
  (q < limit F ∧ ∃ v, x = .fin n v ∧ Nearest F q v) ∨ (limit F ≤ q ∧ x = .inf n)

/-- C87 in full, for a library that meets its documentation: every float survives the trip through strings, and a decimal becomes
the nearest float of the target type. -/
def C87_full : Prop := ∀ (S : Strconv) (F : Fmt), F.IsGo →
  (∀ x, IsFlt F x → stringToFloat S F (floatToString S F x) = x) ∧
  (∀ s n q, Decimal s n q → NearestFlt F n q (stringToFloat S F s))

/-- C87: the round trip, for both types. -/
theorem C87_round_trip (S : Strconv) (F : Fmt) (hF : F.IsGo) (x : Flt) (hx : IsFlt F x) :
    stringToFloat S F (floatToString S F x) = x := by
  have h64 : IsFlt f64 x ∧ floatToFloat f64 x = x ∧ floatToFloat F x = x := by
    cases x with
    | nan => exact ⟨trivial, rfl, rfl⟩
    | inf n => exact ⟨trivial, rfl, rfl⟩
    | fin n q =>
      have h : Mag f64 q := by
        rcases hF with rfl | rfl
        · exact hx
        · exact mag_f32_f64 hx
      exact ⟨h, toFlt_mag h, toFlt_mag hx⟩
  obtain ⟨h1, h2, h3⟩ := h64
  unfold stringToFloat floatToString
  rw [h2]
  have : S.parse (S.format x) = x := by
    cases x with
    | nan => rw [S.format_nan, S.parse_nan]
    | inf n => rw [S.format_inf, S.parse_inf]
    | fin n q =>
      obtain ⟨q', g1, g2⟩ := S.format_fin n q h1
      rw [S.parse_dec _ _ _ g1, g2]
  rw [this, h3]

theorem toFlt_nearest {F : Fmt} (hF : F.IsGo) (n : Bool) {q : ℚ} (hq : 0 ≤ q) : NearestFlt F n q (toFlt F n q) := by
  have hg := isGo_p hF
  have ho := overflow_iff (F := F) (by omega) (by omega) hq
  unfold toFlt
  by_cases h : limit F ≤ q
  · exact .inr ⟨h, by rw [if_pos (ho.2 h)]⟩
  · have h' := fun g => h (ho.1 g)
    exact .inl ⟨not_le.1 h, _, by rw [if_neg h'], roundMag_nearest (by omega) (by omega) hq (not_le.1 h')⟩

/-- C87 for float64. Missing: float32, whose decimals are rounded twice (`C87_refuted`). -/
theorem C87_nearest_partial (S : Strconv) (s : List UInt8) (n : Bool) (q : ℚ) (h : Decimal s n q) :
    NearestFlt f64 n q (stringToFloat S f64 s) := by
  have hq := decimal_nonneg h
  have hg := isGo_p (.inl rfl : Fmt.IsGo f64)
  have : stringToFloat S f64 s = toFlt f64 n q := by
    unfold stringToFloat
    rw [S.parse_dec _ _ _ (parseDec_eq h)]
    unfold toFlt
    by_cases g : (2 : ℚ) ^ (f64.emax + f64.p) ≤ roundMag f64 q
    · rw [if_pos g]; rfl
    · rw [if_neg g]
      exact toFlt_mag (roundMag_isMag (by omega) (by omega) hq (not_le.1 g))
  rw [this]
  exact toFlt_nearest (.inl rfl) n hq

/-- C87: an integer written out and read as a float64 is the integer converted directly. -/
theorem C87_integers (S : Strconv) (t : IntTy) (ht : t.IsGo) (i : Int) (hi : InTy t i) :
    stringToFloat S f64 (if t.signed then intToString t i else uintToString t i) = integerToFloat f64 i := by
  have hc : Canonical (if t.signed then intToString t i else uintToString t i) i := by
    cases hs : t.signed with
    | true => exact (C64_signed_round_trip t ht hs i hi).1
    | false => exact (C64_unsigned_round_trip t ht hs i hi).1
  generalize (if t.signed then intToString t i else uintToString t i) = s at hc
  have hd : Decimal s (decide (i < 0)) |(i : ℚ)| := by
    rcases hc with ⟨n, rfl, ⟨h1, h2, h3⟩, -⟩ | ⟨u, n, rfl, rfl, hn, ⟨h1, h2, h3⟩, -⟩
    · refine ⟨[], s, [], .inr (.inr ⟨rfl, by simp⟩), h2, by simp, by simpa using h1, .inr ⟨rfl, rfl⟩, ?_⟩
      simp [h3]
    · refine ⟨[45], u, [], .inl ⟨rfl, by simp; omega⟩, h2, by simp, by simpa using h1, .inr ⟨rfl, rfl⟩, ?_⟩
      simp [h3]
  have hg := isGo_p (.inl rfl : Fmt.IsGo f64)
  unfold stringToFloat integerToFloat
  rw [S.parse_dec _ _ _ (parseDec_eq hd)]
  unfold toFlt
  by_cases g : (2 : ℚ) ^ (f64.emax + f64.p) ≤ roundMag f64 |(i : ℚ)|
  · rw [if_pos g]; rfl
  · rw [if_neg g]
    exact toFlt_mag (roundMag_isMag (by omega) (by omega) (abs_nonneg _) (not_le.1 g))

/-! ### A library -/

theorem value_zeros (k : Nat) (s : List UInt8) : value (List.replicate k 48 ++ s) = value s := by
  unfold value
  induction k with
  | zero => rfl
  | succ k ih => rw [List.replicate_succ, List.cons_append, List.foldl_cons]; exact ih

/-- Every magnitude of a format is a decimal. -/
theorem mag_decimal {F : Fmt} {q : ℚ} (h : Mag F q) (n : Bool) : ∃ s, Decimal s n q := by
  obtain ⟨m, e, -, -, -, rfl⟩ := h
  have sg : ∃ sg : List UInt8, (sg = [45] ∧ n = true ∨ sg = [43] ∧ n = false ∨ sg = [] ∧ n = false) := by
    cases n
    · exact ⟨[], .inr (.inr ⟨rfl, rfl⟩)⟩
    · exact ⟨[45], .inl ⟨rfl, rfl⟩⟩
  obtain ⟨sg, hsg⟩ := sg
  rcases le_total 0 e with he | he
  · obtain ⟨h1, h2, h3⟩ := (digits_numeral (m * 2 ^ e.toNat)).1
    refine ⟨sg ++ digits (m * 2 ^ e.toNat), sg, _, [], hsg, h2, by simp, by simpa using h1, .inr ⟨rfl, rfl⟩, ?_⟩
    rw [List.append_nil, h3]
    push_cast
    rw [← zpow_natCast, Int.toNat_of_nonneg he]; simp
  · have hk : ∃ k : Nat, e = -(k : Int) := ⟨e.natAbs, by omega⟩
    obtain ⟨k, rfl⟩ := hk
    obtain ⟨h1, h2, h3⟩ := (digits_numeral (m * 5 ^ k)).1
    have hl : ∀ d ∈ List.replicate k 48 ++ digits (m * 5 ^ k), IsDigit d := by
      intro d hd
      rcases List.mem_append.1 hd with g | g
      · rw [List.eq_of_mem_replicate g]; decide
      · exact h2 d g
    obtain ⟨D, hD⟩ : ∃ D, D = List.replicate k 48 ++ digits (m * 5 ^ k) := ⟨_, rfl⟩
    rw [← hD] at hl
    have hlen : k ≤ D.length := by rw [hD]; simp
    have hDne : D ≠ [] := by rw [hD]; simp [h1]
    refine ⟨sg ++ D.take (D.length - k) ++ 46 :: D.drop (D.length - k), sg, _, _, hsg, fun c hc => hl c (List.mem_of_mem_take hc),
      fun c hc => hl c (List.mem_of_mem_drop hc), by rw [List.take_append_drop]; exact hDne, .inl rfl, ?_⟩
    rw [List.take_append_drop, List.length_drop, show D.length - (D.length - k) = k by omega, hD, value_zeros, h3]
    push_cast
    rw [zpow_neg, zpow_natCast, show (10 : ℚ) = 2 * 5 by norm_num, mul_pow]
    field_simp

open Classical in
/-- A library that meets the documentation. -/
noncomputable def exS : Strconv where
  parse s := match parseDec s with
    | some (n, q) => toFlt f64 n q
    | none => if s = ascii "+Inf" then .inf false else if s = ascii "-Inf" then .inf true else .nan
  format
    | .nan => ascii "NaN"
    | .inf n => ascii (if n then "-Inf" else "+Inf")
    | .fin n q => if h : Mag f64 q then (mag_decimal h n).choose else []
  parse_dec s n q h := by rw [h]
  parse_inf n := by
    cases n
    · have : parseDec (ascii "+Inf") = none := by simp [ascii, parseDec, parseMag]
      simp [this]
    · have : parseDec (ascii "-Inf") = none := by simp [ascii, parseDec, parseMag]
      simp only [if_true, this]
      rw [if_neg (by decide)]
  parse_nan := by
    have : parseDec (ascii "NaN") = none := by simp [ascii, parseDec, parseMag]
    simp only [this]
    rw [if_neg (by decide), if_neg (by decide)]
  format_fin n q h := by
    refine ⟨q, ?_, toFlt_mag h⟩
    simp only [dif_pos h]
    exact parseDec_eq (mag_decimal h n).choose_spec
  format_inf n := rfl
  format_nan := rfl

/-! ### Rounding twice -/

/-- 2^60 + 2^36 + 1, just above the middle between two neighbours of type float32. -/
def exS32 : List UInt8 := ascii "1152921573326323713"

theorem exS32_decimal : Decimal exS32 false (2 ^ 60 + 2 ^ 36 + 1) := by
  refine ⟨[], exS32, [], .inr (.inr ⟨rfl, rfl⟩), ?_, by simp, by decide, .inr ⟨rfl, rfl⟩, ?_⟩
  · intro c hc; revert c; decide
  · have : value exS32 = 2 ^ 60 + 2 ^ 36 + 1 := by decide
    rw [List.append_nil, this]; norm_num

theorem exS32_f32 (S : Strconv) : stringToFloat S f32 exS32 = .fin false (2 ^ 60) := by
  have big : ∀ k : Nat, (2 : ℚ) ^ 60 + 2 ^ 36 < 2 ^ (k : Int) ↔ 60 < k := by
    intro k
    rw [zpow_natCast]
    constructor
    · intro h
      by_contra hc
      have : (2 : ℚ) ^ k ≤ 2 ^ 60 := pow_le_pow_right₀ (by norm_num) (by omega)
      linarith [show (0 : ℚ) < 2 ^ 36 by positivity]
    · intro h
      have : (2 : ℚ) ^ 61 ≤ 2 ^ k := pow_le_pow_right₀ (by norm_num) (by omega)
      norm_num at this ⊢
      linarith
  have h64 : roundMag f64 ((2 : ℚ) ^ 60 + 2 ^ 36 + 1) = 2 ^ 60 + 2 ^ 36 := by
    rw [roundMag_eval f64 (l := 60) (k := 8) (by norm_num) (by norm_num) (by decide)]
    have hfl : ⌊((2 : ℚ) ^ 60 + 2 ^ 36 + 1) / 2 ^ (8 : Int)⌋ = 2 ^ 52 + 2 ^ 28 := by
      rw [Int.floor_eq_iff]; constructor <;> norm_num
    unfold roundEven
    rw [hfl, if_pos (by norm_num)]
    norm_num
  have h32 : roundMag f32 ((2 : ℚ) ^ 60 + 2 ^ 36) = 2 ^ 60 := by
    rw [roundMag_eval f32 (l := 60) (k := 37) (by norm_num) (by norm_num) (by decide)]
    have hfl : ⌊((2 : ℚ) ^ 60 + 2 ^ 36) / 2 ^ (37 : Int)⌋ = 2 ^ 23 := by
      rw [Int.floor_eq_iff]; constructor <;> norm_num
    unfold roundEven
    rw [hfl, if_neg (by norm_num), if_neg (by norm_num), if_pos (by norm_num)]
    norm_num
  have e1 : toFlt f64 false ((2 : ℚ) ^ 60 + 2 ^ 36 + 1) = .fin false (2 ^ 60 + 2 ^ 36) := by
    unfold toFlt
    rw [h64, if_neg]
    rw [not_le]
    exact (big 1024).2 (by norm_num)
  unfold stringToFloat
  rw [S.parse_dec _ _ _ (parseDec_eq exS32_decimal), e1]
  unfold floatToFloat toFlt
  simp only
  rw [h32, if_neg]
  rw [not_le]
  refine lt_trans ?_ ((big 128).2 (by norm_num))
  norm_num

/-- The decimal becomes 2^60 and not its upper neighbour, which is nearer; whatever the library. -/
theorem C87_refuted_any (S : Strconv) : ∃ s n q, Decimal s n q ∧ ¬ NearestFlt f32 n q (stringToFloat S f32 s) := by
  refine ⟨exS32, false, _, exS32_decimal, ?_⟩
  rw [exS32_f32]
  rintro (⟨-, v, hv, -, hn, -⟩ | ⟨-, h⟩)
  · simp only [Flt.fin.injEq, true_and] at hv
    subst hv
    have := hn (2 ^ 60 + 2 ^ 37) ⟨2 ^ 23 + 1, 37, by decide, by decide, by decide, by norm_num⟩
    rw [abs_of_nonpos (by norm_num), abs_of_nonneg (by norm_num)] at this
    norm_num at this
  · exact absurd h (by simp)

theorem C87_refuted : ¬ C87_full := by
  intro h
  obtain ⟨s, n, q, hd, hn⟩ := C87_refuted_any exS
  exact hn ((h exS f32 (.inr rfl)).2 s n q hd)

/-- A decimal with a fraction for `C87_nearest_partial`: "-0.1". -/
example : Decimal (ascii "-0.1") true (1 / 10) := by
  refine ⟨[45], [48], [49], .inl ⟨rfl, rfl⟩, by decide, by decide, by decide, .inl (by decide), ?_⟩
  have : value ([48] ++ [49]) = 1 := by decide
  rw [this]; norm_num

end Verif.ConvFloat
