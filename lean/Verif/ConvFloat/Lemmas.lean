import Verif.ConvFloat.Spec
import Mathlib.Tactic.FieldSimp
import Mathlib.Tactic.Positivity
import Mathlib.Algebra.Order.Field.Power
/-!
# Rounding
-/
namespace Verif.ConvFloat
open Verif.ConvNum

theorem roundEven_int (z : Int) : roundEven (z : ℚ) = z := by
  unfold roundEven; simp

theorem roundEven_cases (q : ℚ) : (roundEven q = ⌊q⌋ ∧ q - ⌊q⌋ < 1 / 2) ∨ (roundEven q = ⌊q⌋ + 1 ∧ 1 / 2 < q - ⌊q⌋) ∨
    (q - ⌊q⌋ = 1 / 2 ∧ roundEven q % 2 = 0 ∧ (roundEven q = ⌊q⌋ ∨ roundEven q = ⌊q⌋ + 1)) := by
  unfold roundEven
  by_cases h1 : q - ⌊q⌋ < 1 / 2
  · rw [if_pos h1]; exact .inl ⟨rfl, h1⟩
  · rw [if_neg h1]
    by_cases h2 : 1 / 2 < q - ⌊q⌋
    · rw [if_pos h2]; exact .inr (.inl ⟨rfl, h2⟩)
    · rw [if_neg h2]
      refine .inr (.inr ⟨le_antisymm (not_lt.1 h2) (not_lt.1 h1), ?_⟩)
      by_cases h3 : ⌊q⌋ % 2 = 0
      · rw [if_pos h3]; exact ⟨h3, .inl rfl⟩
      · rw [if_neg h3]; exact ⟨by omega, .inr rfl⟩

/-- Integers are not nearer. -/
theorem roundEven_near (q : ℚ) (z : Int) : |(roundEven q : ℚ) - q| ≤ |(z : ℚ) - q| := by
  have hf1 := Int.floor_le q
  have hf2 := Int.lt_floor_add_one q
  have hz : z ≤ ⌊q⌋ ∨ ⌊q⌋ + 1 ≤ z := by omega
  have hz' : (z : ℚ) ≤ ⌊q⌋ ∨ (⌊q⌋ : ℚ) + 1 ≤ z := by
    rcases hz with h | h
    · exact .inl (by exact_mod_cast h)
    · exact .inr (by exact_mod_cast h)
  have hlb : (z : ℚ) ≤ ⌊q⌋ → q - ⌊q⌋ ≤ |(z : ℚ) - q| := fun h => by
    rw [abs_sub_comm]; exact le_trans (by linarith) (le_abs_self _)
  have hub : (⌊q⌋ : ℚ) + 1 ≤ z → ⌊q⌋ + 1 - q ≤ |(z : ℚ) - q| := fun h => le_trans (by linarith) (le_abs_self _)
  rcases roundEven_cases q with ⟨h, hh⟩ | ⟨h, hh⟩ | ⟨hh, -, h | h⟩ <;> rw [h] <;> push_cast
  · rw [abs_sub_comm, abs_of_nonneg (by linarith)]
    rcases hz' with g | g
    · exact hlb g
    · exact le_trans (by linarith) (hub g)
  · rw [abs_of_nonneg (by linarith)]
    rcases hz' with g | g
    · exact le_trans (by linarith) (hlb g)
    · exact hub g
  · rw [abs_sub_comm, abs_of_nonneg (by linarith)]
    rcases hz' with g | g
    · exact hlb g
    · exact le_trans (by linarith) (hub g)
  · rw [abs_of_nonneg (by linarith)]
    rcases hz' with g | g
    · exact le_trans (by linarith) (hlb g)
    · exact hub g

/-- With two nearest integers, the even one is taken. -/
theorem roundEven_tie (q : ℚ) (z : Int) (hz : z ≠ roundEven q) (h : |(z : ℚ) - q| = |(roundEven q : ℚ) - q|) :
    roundEven q % 2 = 0 := by
  have hf1 := Int.floor_le q
  have hf2 := Int.lt_floor_add_one q
  have hz2 : z ≤ ⌊q⌋ ∨ ⌊q⌋ + 1 ≤ z := by omega
  rcases roundEven_cases q with ⟨hr, hh⟩ | ⟨hr, hh⟩ | ⟨-, g, -⟩
  · exfalso
    rw [hr] at h hz
    rw [abs_sub_comm (⌊q⌋ : ℚ), abs_of_nonneg (show 0 ≤ q - ⌊q⌋ by linarith)] at h
    rcases hz2 with g | g
    · have : (z : ℚ) + 1 ≤ ⌊q⌋ := by exact_mod_cast (by omega : z + 1 ≤ ⌊q⌋)
      rw [abs_sub_comm, abs_of_nonneg (by linarith)] at h; linarith
    · have : (⌊q⌋ : ℚ) + 1 ≤ z := by exact_mod_cast g
      rw [abs_of_nonneg (by linarith)] at h; linarith
  · exfalso
    rw [hr] at h hz
    push_cast at h
    rw [abs_of_nonneg (show 0 ≤ (⌊q⌋ : ℚ) + 1 - q by linarith)] at h
    rcases hz2 with g | g
    · have : (z : ℚ) ≤ ⌊q⌋ := by exact_mod_cast g
      rw [abs_sub_comm, abs_of_nonneg (by linarith)] at h; linarith
    · have : (⌊q⌋ : ℚ) + 1 + 1 ≤ z := by exact_mod_cast (by omega : ⌊q⌋ + 1 + 1 ≤ z)
      rw [abs_of_nonneg (by linarith)] at h; linarith
  · exact g

theorem two_zpow_pos (k : Int) : (0 : ℚ) < 2 ^ k := by positivity

theorem zpow_int (e k : Int) (h : k ≤ e) : ∃ z : Int, (2 : ℚ) ^ e = z * 2 ^ k ∧ 0 ≤ z := by
  refine ⟨2 ^ (e - k).toNat, ?_, by positivity⟩
  push_cast
  rw [← zpow_natCast, ← zpow_add₀ (by norm_num : (2 : ℚ) ≠ 0)]
  congr 1; omega

theorem log_lt {q : ℚ} {x : Int} (hq : 0 < q) (h : q < 2 ^ x) : Int.log 2 q < x :=
  (Int.lt_zpow_iff_log_lt (by norm_num : 1 < 2) hq).1 (by exact_mod_cast h)

theorem log_le_self {q : ℚ} (hq : 0 < q) : (2 : ℚ) ^ Int.log 2 q ≤ q := by
  have := Int.zpow_log_le_self (b := 2) (by norm_num) hq
  exact_mod_cast this

theorem self_lt_log (q : ℚ) : q < (2 : ℚ) ^ (Int.log 2 q + 1) := by
  have := Int.lt_zpow_succ_log_self (b := 2) (by norm_num) q
  exact_mod_cast this

theorem mag_nonneg {F : Fmt} {q : ℚ} (h : Mag F q) : 0 ≤ q := by
  obtain ⟨m, e, -, -, -, rfl⟩ := h
  positivity

theorem mag_lt {F : Fmt} {q : ℚ} (h : Mag F q) : q < 2 ^ (F.emax + F.p) := by
  obtain ⟨m, e, hm, -, he, rfl⟩ := h
  have h1 : (m : ℚ) < 2 ^ (F.p : Int) := by rw [zpow_natCast]; exact_mod_cast hm
  rw [add_comm, zpow_add₀ (by norm_num)]
  calc (m : ℚ) * 2 ^ e < 2 ^ (F.p : Int) * 2 ^ e := by
        exact mul_lt_mul_of_pos_right h1 (two_zpow_pos _)
    _ ≤ 2 ^ (F.p : Int) * 2 ^ F.emax := by
        exact mul_le_mul_of_nonneg_left (zpow_le_zpow_right₀ (by norm_num) he) (le_of_lt (two_zpow_pos _))

/-- A number with few digits is a multiple of its last place. -/
theorem few_digits {F : Fmt} {q : ℚ} {m : Nat} {e : Int} (hm : m < 2 ^ F.p) (he : F.emin ≤ e) (hq : q = m * 2 ^ e) :
    q = 0 ∨ expo F q ≤ e := by
  by_cases h0 : q = 0
  · exact .inl h0
  right
  have hpos : 0 < q := lt_of_le_of_ne (by rw [hq]; positivity) (Ne.symm h0)
  have h1 : (m : ℚ) < 2 ^ (F.p : Int) := by rw [zpow_natCast]; exact_mod_cast hm
  have hlt : q < 2 ^ ((F.p : Int) + e) := by
    rw [zpow_add₀ (by norm_num), hq]
    exact mul_lt_mul_of_pos_right h1 (two_zpow_pos _)
  have := log_lt hpos hlt
  unfold expo
  omega

theorem roundMag_multiple (F : Fmt) (q : ℚ) (z : Int) (h : q = z * 2 ^ expo F q) : roundMag F q = q := by
  have hne : (2 : ℚ) ^ expo F q ≠ 0 := ne_of_gt (two_zpow_pos _)
  have : q / 2 ^ expo F q = (z : ℚ) := by
    rw [div_eq_iff hne]; exact h
  unfold roundMag
  rw [this, roundEven_int, ← h]

theorem roundMag_zero (F : Fmt) : roundMag F 0 = 0 := roundMag_multiple F 0 0 (by simp)

/-- Magnitudes of the format are not changed. -/
theorem roundMag_mag {F : Fmt} {q : ℚ} (h : Mag F q) : roundMag F q = q := by
  obtain ⟨m, e, hm, he1, he2, hq⟩ := h
  rcases few_digits hm he1 hq with h0 | hk
  · rw [h0, roundMag_zero]
  · obtain ⟨z, hz, -⟩ := zpow_int e (expo F q) hk
    refine roundMag_multiple F q (m * z) ?_
    conv_lhs => rw [hq, hz]
    push_cast; ring

theorem toFlt_mag {F : Fmt} {n : Bool} {q : ℚ} (h : Mag F q) : toFlt F n q = .fin n q := by
  unfold toFlt
  rw [roundMag_mag h, if_neg (not_le.2 (mag_lt h))]

theorem roundEven_nonneg {q : ℚ} (h : 0 ≤ q) : 0 ≤ roundEven q := by
  have : 0 ≤ ⌊q⌋ := Int.floor_nonneg.2 h
  rcases roundEven_cases q with ⟨g, -⟩ | ⟨g, -⟩ | ⟨-, -, g | g⟩ <;> omega

/-- The rounded number has few digits, or is the next power of two. -/
theorem roundMag_digits (F : Fmt) (q : ℚ) (hq : 0 ≤ q) : ∃ r : Nat, r ≤ 2 ^ F.p ∧
    (roundEven (q / 2 ^ expo F q) : ℚ) = r ∧ roundMag F q = r * 2 ^ expo F q := by
  have hk := two_zpow_pos (expo F q)
  have hd : 0 ≤ q / 2 ^ expo F q := by positivity
  have hn := roundEven_nonneg hd
  refine ⟨(roundEven (q / 2 ^ expo F q)).toNat, ?_, ?_, ?_⟩
  · have h1 : q < 2 ^ ((F.p : Int) + expo F q) := by
      refine lt_of_lt_of_le (self_lt_log q) (zpow_le_zpow_right₀ (by norm_num) ?_)
      unfold expo; omega
    rw [zpow_add₀ (by norm_num), ← div_lt_iff₀ hk] at h1
    have h2 := Int.floor_lt.2 (show q / 2 ^ expo F q < ((2 ^ F.p : Int) : ℚ) by rw [zpow_natCast] at h1; push_cast; exact h1)
    have h3 : roundEven (q / 2 ^ expo F q) ≤ 2 ^ F.p := by
      rcases roundEven_cases (q / 2 ^ expo F q) with ⟨g, -⟩ | ⟨g, -⟩ | ⟨-, -, g | g⟩ <;> omega
    have : ((2 ^ F.p : Nat) : Int) = 2 ^ F.p := by push_cast; rfl
    omega
  · have : ((roundEven (q / 2 ^ expo F q)).toNat : Int) = roundEven (q / 2 ^ expo F q) := Int.toNat_of_nonneg hn
    exact_mod_cast this.symm
  · have : ((roundEven (q / 2 ^ expo F q)).toNat : Int) = roundEven (q / 2 ^ expo F q) := Int.toNat_of_nonneg hn
    unfold roundMag
    congr 1
    exact_mod_cast this.symm

theorem roundMag_nonneg (F : Fmt) {q : ℚ} (hq : 0 ≤ q) : 0 ≤ roundMag F q := by
  obtain ⟨r, -, -, h⟩ := roundMag_digits F q hq
  rw [h]; positivity

theorem expo_ge (F : Fmt) (q : ℚ) : F.emin ≤ expo F q := le_max_left _ _

/-- The rounded number belongs to the format unless it is too large. -/
theorem roundMag_isMag {F : Fmt} (hp : 1 ≤ F.p) (he : F.emin ≤ F.emax) {q : ℚ} (hq : 0 ≤ q) (hlt : roundMag F q < 2 ^ (F.emax + F.p)) :
    Mag F (roundMag F q) := by
  obtain ⟨r, hr, -, h⟩ := roundMag_digits F q hq
  have hge := expo_ge F q
  generalize expo F q = k at *
  by_cases h0 : r = 0
  · exact ⟨0, F.emin, by positivity, le_refl _, he, by rw [h, h0]; simp⟩
  rcases Nat.lt_or_ge r (2 ^ F.p) with hr | hr'
  · by_cases hk : k ≤ F.emax
    · exact ⟨r, k, hr, hge, hk, h⟩
    · -- move the surplus into the digits
      obtain ⟨z, hz, hz0⟩ := zpow_int k F.emax (by omega)
      have hval : roundMag F q = ((r * z.toNat : Nat) : ℚ) * 2 ^ F.emax := by
        have : (z.toNat : ℚ) = z := by exact_mod_cast Int.toNat_of_nonneg hz0
        rw [h, hz]; push_cast; rw [this]; ring
      refine ⟨r * z.toNat, F.emax, ?_, he, le_refl _, hval⟩
      rw [hval, add_comm, zpow_add₀ (by norm_num)] at hlt
      have := lt_of_mul_lt_mul_right hlt (le_of_lt (two_zpow_pos _))
      rw [zpow_natCast] at this
      exact_mod_cast this
  · have hre : r = 2 ^ F.p := le_antisymm hr hr'
    have hval : roundMag F q = 2 ^ ((F.p : Int) + k) := by
      rw [h, hre, zpow_add₀ (by norm_num)]; push_cast; rw [zpow_natCast]
    rw [hval] at hlt
    have hlt' := (zpow_lt_zpow_iff_right₀ (by norm_num : (1 : ℚ) < 2)).1 hlt
    refine ⟨2 ^ (F.p - 1), k + 1, Nat.pow_lt_pow_right (by norm_num) (by omega), by omega, by omega, ?_⟩
    rw [hval]; push_cast
    rw [← zpow_natCast, ← zpow_add₀ (by norm_num)]
    congr 1; omega

/-- No magnitude of the format is nearer; and one that is as near is a multiple of the last place. -/
theorem roundMag_near {F : Fmt} (hp : 1 ≤ F.p) {q : ℚ} (hq : 0 ≤ q) {m : Nat} {e : Int} (hm : m < 2 ^ F.p) (he : F.emin ≤ e) :
    |roundMag F q - q| ≤ |(m : ℚ) * 2 ^ e - q| ∧
    (|(m : ℚ) * 2 ^ e - q| = |roundMag F q - q| → q ≠ 0 → ∃ z : Int, (m : ℚ) * 2 ^ e = z * 2 ^ expo F q) := by
  have hkp := two_zpow_pos (expo F q)
  have mult : ∀ z : Int, |roundMag F q - q| ≤ |(z : ℚ) * 2 ^ expo F q - q| := by
    intro z
    have h := roundEven_near (q / 2 ^ expo F q) z
    have e1 : roundMag F q - q = (roundEven (q / 2 ^ expo F q) - q / 2 ^ expo F q) * 2 ^ expo F q := by
      unfold roundMag; field_simp
    have e2 : (z : ℚ) * 2 ^ expo F q - q = (z - q / 2 ^ expo F q) * 2 ^ expo F q := by field_simp
    rw [e1, e2, abs_mul, abs_mul]
    exact mul_le_mul_of_nonneg_right h (abs_nonneg _)
  by_cases h0 : q = 0
  · subst h0
    refine ⟨?_, fun _ h => absurd rfl h⟩
    rw [roundMag_zero]; simp; positivity
  have hpos : 0 < q := lt_of_le_of_ne hq (Ne.symm h0)
  by_cases hk : expo F q ≤ e
  · obtain ⟨z, hz, -⟩ := zpow_int e (expo F q) hk
    have : (m : ℚ) * 2 ^ e = ((m * z : Int) : ℚ) * 2 ^ expo F q := by rw [hz]; push_cast; ring
    exact ⟨by rw [this]; exact mult _, fun _ _ => ⟨_, this⟩⟩
  · -- below the binade of `q`
    have hlog : expo F q = Int.log 2 q - F.p + 1 := by
      have : F.emin < expo F q := by omega
      unfold expo at this ⊢; omega
    have hw : (m : ℚ) * 2 ^ e < 2 ^ Int.log 2 q := by
      have h1 : (m : ℚ) < 2 ^ (F.p : Int) := by rw [zpow_natCast]; exact_mod_cast hm
      calc (m : ℚ) * 2 ^ e < 2 ^ (F.p : Int) * 2 ^ e := mul_lt_mul_of_pos_right h1 (two_zpow_pos _)
        _ = 2 ^ ((F.p : Int) + e) := by rw [zpow_add₀ (by norm_num)]
        _ ≤ 2 ^ Int.log 2 q := zpow_le_zpow_right₀ (by norm_num) (by omega)
    have hle := log_le_self hpos
    obtain ⟨z, hz, -⟩ := zpow_int (Int.log 2 q) (expo F q) (by omega)
    have h3 : |roundMag F q - q| ≤ q - 2 ^ Int.log 2 q := by
      have := mult z
      rwa [← hz, abs_sub_comm ((2 : ℚ) ^ Int.log 2 q), abs_of_nonneg (sub_nonneg.2 hle)] at this
    have h4 : |(m : ℚ) * 2 ^ e - q| = q - m * 2 ^ e := by rw [abs_sub_comm, abs_of_nonneg (by linarith)]
    rw [h4]
    exact ⟨by linarith, fun h _ => by exfalso; linarith⟩

/-- Rounding gives the nearest magnitude. -/
theorem roundMag_nearest {F : Fmt} (hp : 2 ≤ F.p) (he : F.emin ≤ F.emax) {q : ℚ} (hq : 0 ≤ q) (hlt : roundMag F q < 2 ^ (F.emax + F.p)) :
    Nearest F q (roundMag F q) := by
  refine ⟨roundMag_isMag (by omega) he hq hlt, ?_, ?_⟩
  · rintro w ⟨m, e, hm, he1, he2, rfl⟩
    exact (roundMag_near (by omega) hq hm he1).1
  · rintro w ⟨m, e, hm, he1, he2, rfl⟩ hne htie
    by_cases h0 : q = 0
    · subst h0
      rw [roundMag_zero] at hne htie
      simp at htie
      rcases htie with h | h
      · rw [h] at hne; simp at hne
      · exact absurd h (ne_of_gt (two_zpow_pos e))
    · obtain ⟨z, hz⟩ := (roundMag_near (by omega) hq hm he1).2 htie h0
      have hkp := two_zpow_pos (expo F q)
      have hz1 : z ≠ roundEven (q / 2 ^ expo F q) := by
        rintro rfl; exact hne hz
      have e1 : roundMag F q - q = (roundEven (q / 2 ^ expo F q) - q / 2 ^ expo F q) * 2 ^ expo F q := by
        unfold roundMag; field_simp
      have e2 : (z : ℚ) * 2 ^ expo F q - q = (z - q / 2 ^ expo F q) * 2 ^ expo F q := by field_simp
      rw [hz, e1, e2, abs_mul, abs_mul] at htie
      have ht := mul_right_cancel₀ (ne_of_gt (abs_pos.2 (ne_of_gt hkp))) htie
      have heven := roundEven_tie _ z hz1 ht
      obtain ⟨r, hr, hr2, h⟩ := roundMag_digits F q hq
      have hr3 : roundEven (q / 2 ^ expo F q) = (r : Int) := by exact_mod_cast hr2
      rw [hr3] at heven
      have hge := expo_ge F q
      have hr4 : r = 2 * (r / 2) := by omega
      have hpe : 2 ^ F.p = 2 * 2 ^ (F.p - 1) := by
        rw [← Nat.pow_succ']; congr 1; omega
      rcases Nat.lt_or_ge r (2 ^ F.p) with hlt' | hge'
      · refine ⟨r / 2, expo F q + 1, by omega, by omega, ?_⟩
        rw [h, zpow_add₀ (by norm_num)]
        conv_lhs => rw [hr4]
        push_cast; ring
      · have hre : r = 2 ^ F.p := le_antisymm hr hge'
        have hpe2 : 2 ^ (F.p - 1) = 2 * 2 ^ (F.p - 2) := by
          rw [← Nat.pow_succ']; congr 1; omega
        refine ⟨1, expo F q + F.p, ?_, by omega, ?_⟩
        · have := Nat.one_le_two_pow (n := F.p - 2); omega
        · rw [h, hre, zpow_add₀ (by norm_num), zpow_natCast]; push_cast; ring

/-- Rounding keeps the order. -/
theorem roundMag_mono {F : Fmt} (hp : 1 ≤ F.p) {q q' : ℚ} (hq : 0 ≤ q) (h : q ≤ q') : roundMag F q ≤ roundMag F q' := by
  by_contra hlt
  rw [not_le] at hlt
  have hq' : 0 ≤ q' := le_trans hq h
  have key : ∀ x y, 0 ≤ x → 0 ≤ y → |roundMag F x - x| ≤ |roundMag F y - x| := by
    intro x y hx hy
    obtain ⟨r, hr, -, hy2⟩ := roundMag_digits F y hy
    have hge := expo_ge F y
    rcases Nat.lt_or_ge r (2 ^ F.p) with g | g
    · rw [hy2]; exact (roundMag_near hp hx g hge).1
    · have hre : r = 2 ^ F.p := le_antisymm hr g
      have : roundMag F y = ((2 ^ (F.p - 1) : Nat) : ℚ) * 2 ^ (expo F y + 1) := by
        rw [hy2, hre]; push_cast
        rw [← zpow_natCast, ← zpow_natCast, ← zpow_add₀ (by norm_num), ← zpow_add₀ (by norm_num)]
        congr 1; omega
      rw [this]
      exact (roundMag_near hp hx (Nat.pow_lt_pow_right (by norm_num) (by omega)) (by omega)).1
  have h1 := key q q' hq hq'
  have h2 := key q' q hq' hq
  have a1 : (roundMag F q + roundMag F q') / 2 ≤ q := by
    by_contra hc
    rw [not_le] at hc
    have : roundMag F q - q ≤ |roundMag F q - q| := le_abs_self _
    have h3 : |roundMag F q' - q| < roundMag F q - q := by
      rw [abs_lt]; constructor <;> linarith
    linarith
  have a2 : q' ≤ (roundMag F q + roundMag F q') / 2 := by
    by_contra hc
    rw [not_le] at hc
    have : -(roundMag F q' - q') ≤ |roundMag F q' - q'| := neg_le_abs _
    have h3 : |roundMag F q - q'| < -(roundMag F q' - q') := by
      rw [abs_lt]; constructor <;> linarith
    linarith
  have : q = q' := by linarith
  rw [this] at hlt
  exact lt_irrefl _ hlt

theorem log_eq {q : ℚ} {l : Int} (h1 : 2 ^ l ≤ q) (h2 : q < 2 ^ (l + 1)) : Int.log 2 q = l := by
  have hpos : 0 < q := lt_of_lt_of_le (two_zpow_pos l) h1
  have a := log_lt hpos h2
  have b := (Int.zpow_le_iff_le_log (by norm_num : 1 < 2) hpos).1 (by exact_mod_cast h1 : ((2 : Nat) : ℚ) ^ l ≤ q)
  omega

theorem roundMag_eval (F : Fmt) {q : ℚ} {l k : Int} (h1 : 2 ^ l ≤ q) (h2 : q < 2 ^ (l + 1)) (hk : k = max F.emin (l - F.p + 1)) :
    roundMag F q = roundEven (q / 2 ^ k) * 2 ^ k := by
  have : expo F q = k := by unfold expo; rw [log_eq h1 h2, hk]
  unfold roundMag
  rw [this]

/-- From here on numbers become infinite: half a place above the largest one. -/
def limit (F : Fmt) : ℚ := (2 ^ F.p - 1 / 2) * 2 ^ F.emax

theorem roundMag_limit {F : Fmt} (hp : 1 ≤ F.p) (he : F.emin ≤ F.emax) : roundMag F (limit F) = 2 ^ (F.emax + F.p) := by
  have hx := two_zpow_pos F.emax
  have h2 : (2 : ℚ) ^ F.p = 2 * 2 ^ (F.p - 1) := by rw [← pow_succ']; congr 1; omega
  have h1 : (1 : ℚ) ≤ 2 ^ (F.p - 1) := one_le_pow₀ (by norm_num)
  have e1 : (2 : ℚ) ^ (F.emax + F.p - 1) = 2 ^ (F.p - 1) * 2 ^ F.emax := by
    rw [← zpow_natCast, ← zpow_add₀ (by norm_num)]; congr 1; omega
  have e2 : (2 : ℚ) ^ (F.emax + F.p) = 2 ^ F.p * 2 ^ F.emax := by
    rw [← zpow_natCast, ← zpow_add₀ (by norm_num)]; congr 1; omega
  rw [roundMag_eval F (l := F.emax + F.p - 1) (k := F.emax) ?_ ?_ (by omega), e2]
  · have : limit F / 2 ^ F.emax = 2 ^ F.p - 1 / 2 := by unfold limit; field_simp
    rw [this]
    congr 1
    have hfl : ⌊(2 : ℚ) ^ F.p - 1 / 2⌋ = 2 ^ F.p - 1 := by
      rw [Int.floor_eq_iff]; push_cast; constructor <;> linarith
    have hpe : (2 : Int) ^ F.p = 2 * 2 ^ (F.p - 1) := by rw [← pow_succ']; congr 1; omega
    have : roundEven ((2 : ℚ) ^ F.p - 1 / 2) = 2 ^ F.p := by
      unfold roundEven
      rw [hfl, if_neg (by push_cast; linarith), if_neg (by push_cast; linarith), if_neg (by omega)]
      ring
    rw [this]; push_cast; rfl
  · rw [e1]; unfold limit; exact mul_le_mul_of_nonneg_right (by linarith) hx.le
  · rw [sub_add_cancel, e2]; unfold limit; exact mul_lt_mul_of_pos_right (by linarith) hx

theorem overflow_iff {F : Fmt} (hp : 1 ≤ F.p) (he : F.emin ≤ F.emax) {q : ℚ} (hq : 0 ≤ q) :
    2 ^ (F.emax + F.p) ≤ roundMag F q ↔ limit F ≤ q := by
  constructor
  · intro h
    by_contra hc
    rw [not_le] at hc
    have hx := two_zpow_pos F.emax
    have e2 : (2 : ℚ) ^ (F.emax + F.p) = 2 ^ F.p * 2 ^ F.emax := by
      rw [← zpow_natCast, ← zpow_add₀ (by norm_num)]; congr 1; omega
    have hn := (roundMag_near hp hq (m := 2 ^ F.p - 1) (e := F.emax) (Nat.sub_lt (Nat.two_pow_pos _) (by norm_num)) he).1
    have hm : ((2 ^ F.p - 1 : Nat) : ℚ) = 2 ^ F.p - 1 := by
      rw [Nat.cast_sub Nat.one_le_two_pow]; push_cast; rfl
    rw [hm] at hn
    unfold limit at hc
    rw [e2] at h
    have h1 : roundMag F q - q ≤ |roundMag F q - q| := le_abs_self _
    have h2 : |((2 : ℚ) ^ F.p - 1) * 2 ^ F.emax - q| < roundMag F q - q := by
      rw [abs_lt]
      constructor <;> nlinarith
    linarith
  · intro h
    rw [← roundMag_limit hp he]
    refine roundMag_mono hp ?_ h
    unfold limit
    have : (1 : ℚ) ≤ 2 ^ F.p := one_le_pow₀ (by norm_num)
    have hx := two_zpow_pos F.emax
    exact mul_nonneg (by linarith) hx.le

theorem isGo_p {F : Fmt} (h : F.IsGo) : 24 ≤ F.p ∧ F.emin ≤ 0 ∧ 104 ≤ F.emax := by
  rcases h with rfl | rfl <;> simp [f64, f32]

/-- Integers of 64 bits are below the limit. -/
theorem int_lt_limit {F : Fmt} (h : F.IsGo) {q : ℚ} (hq : q < 2 ^ 64) : q < limit F := by
  have := isGo_p h
  have hp1 : (2 : ℚ) ^ (24 : Nat) ≤ 2 ^ F.p := pow_le_pow_right₀ (by norm_num) (by omega)
  have he1 : (2 : ℚ) ^ (104 : Int) ≤ 2 ^ F.emax := zpow_le_zpow_right₀ (by norm_num) (by omega)
  have h2 : (2 : ℚ) ^ (104 : Int) = 2 ^ (104 : Nat) := by norm_num
  rw [h2] at he1
  unfold limit
  have h0 : (0 : ℚ) < 2 ^ F.emax := two_zpow_pos _
  generalize (2 : ℚ) ^ F.emax = x at *
  generalize (2 : ℚ) ^ F.p = y at *
  norm_num at hp1 he1 hq
  nlinarith

theorem fits_iff (t : IntTy) (i : Int) : fits t i = true ↔ InTy t i := by
  unfold fits InTy
  cases t.signed <;> simp

/-! ## Decimals -/

theorem takeWhile_all {α : Type} (p : α → Bool) (l r : List α) (h : ∀ c ∈ l, p c = true) (hr : ∀ c, r.head? = some c → p c = false) :
    (l ++ r).takeWhile p = l ∧ (l ++ r).dropWhile p = r := by
  induction l with
  | nil =>
    cases r with
    | nil => simp
    | cons c r => have := hr c rfl; simp [this]
  | cons c l ih =>
    have h1 := h c (by simp)
    have := ih (fun d hd => h d (by simp [hd]))
    simp [h1, this]

theorem parseMag_eq (ip fp : List UInt8) (h1 : ∀ c ∈ ip, IsDigit c) (h2 : ∀ c ∈ fp, IsDigit c) (hne : ip ++ fp ≠ []) :
    parseMag (ip ++ 46 :: fp) = some ((value (ip ++ fp) : ℚ) / 10 ^ fp.length) ∧ (fp = [] → parseMag ip = some (value ip : ℚ)) := by
  have d1 : ∀ c ∈ ip, (fun c : UInt8 => decide (48 ≤ c.toNat ∧ c.toNat ≤ 57)) c = true := fun c hc => by
    have := h1 c hc; unfold IsDigit at this; simp [this]
  have d2 : fp.all (fun c => decide (48 ≤ c.toNat ∧ c.toNat ≤ 57)) = true := by
    rw [List.all_eq_true]; intro c hc
    have := h2 c hc; unfold IsDigit at this; simp [this]
  constructor
  · have := takeWhile_all _ ip (46 :: fp) d1 (by intro c hc; simp at hc; subst hc; decide)
    unfold parseMag
    rw [this.1, this.2]
    simp only [d2, hne, ne_eq, not_false_eq_true, and_self, if_true]
    rfl
  · rintro rfl
    have := takeWhile_all _ ip [] d1 (by simp)
    rw [List.append_nil] at this
    unfold parseMag
    rw [this.1, this.2]
    have : ip ≠ [] := by simpa using hne
    simp only [this, if_false]
    rfl

theorem parseDec_eq {s : List UInt8} {n : Bool} {q : ℚ} (h : Decimal s n q) : parseDec s = some (n, q) := by
  obtain ⟨sg, ip, fp, hsg, h1, h2, hne, hs, rfl⟩ := h
  obtain ⟨g1, g2⟩ := parseMag_eq ip fp h1 h2 hne
  have main : ∃ u, s = sg ++ u ∧ parseMag u = some ((value (ip ++ fp) : ℚ) / 10 ^ fp.length) ∧ u ≠ [] ∧ (∀ c, u.head? = some c → c ≠ 45 ∧ c ≠ 43) := by
    have hd : ∀ c, IsDigit c → c ≠ 45 ∧ c ≠ 43 := fun c hc => by
      constructor <;> rintro rfl <;> revert hc <;> decide
    rcases hs with rfl | ⟨rfl, rfl⟩
    · refine ⟨ip ++ 46 :: fp, by simp, g1, by simp, fun c hc => ?_⟩
      cases ip with
      | nil => simp at hc; subst hc; decide
      | cons d ip => simp at hc; subst hc; exact hd _ (h1 _ (by simp))
    · refine ⟨ip, rfl, by simpa using g2 rfl, by simpa using hne, fun c hc => ?_⟩
      cases ip with
      | nil => simp at hc
      | cons d ip => simp at hc; subst hc; exact hd _ (h1 _ (by simp))
  obtain ⟨u, rfl, hu, hun, hh⟩ := main
  rcases hsg with ⟨rfl, rfl⟩ | ⟨rfl, rfl⟩ | ⟨rfl, rfl⟩
  · simp [parseDec, hu]
  · simp [parseDec, hu]
  · cases u with
    | nil => exact absurd rfl hun
    | cons c u =>
      have := hh c rfl
      simp [parseDec, this.1, this.2, hu]

theorem decimal_nonneg {s : List UInt8} {n : Bool} {q : ℚ} (h : Decimal s n q) : 0 ≤ q := by
  obtain ⟨sg, ip, fp, -, -, -, -, -, rfl⟩ := h
  positivity

end Verif.ConvFloat
