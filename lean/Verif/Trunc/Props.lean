import Verif.Trunc.Cal
/-!
# Properties C38-C40: truncation of times
-/
namespace Verif.Trunc
open Verif.Go

/-! ## Lemmas for any period in range -/

theorem truncate_floor {n sec : Int} (hn : 0 < n) (hn2 : n * 1000000000 < 2 ^ 63) (h : Exact n sec) :
    IsFloor n sec (truncate sec n) ∧ -2 ^ 63 ≤ truncate sec n := by
  obtain ⟨h1, r, h2, h3⟩ := h
  have e := isFloor_unique h2 (isFloor_emod hn)
  rw [truncate_eq (by omega) h1 hn hn2]
  exact ⟨isFloor_emod hn, by omega⟩

theorem truncate_lt {n sec : Int} (hn : 0 < n) (hn2 : n * 1000000000 < 2 ^ 63) (h : Exact n sec) :
    truncate sec n ≤ sec ∧ sec < truncate sec n + n := by
  obtain ⟨⟨f1, f2, f3⟩, _⟩ := truncate_floor hn hn2 h
  refine ⟨f1, ?_⟩
  by_contra hc
  have := f3 (truncate sec n + n) (by omega) (by rw [show truncate sec n + n + epoch = truncate sec n + epoch + n by ring]
                                                 exact Int.dvd_add f2 (Int.dvd_refl n))
  omega

theorem isFloor_self {n sec r : Int} (h : IsFloor n sec r) : IsFloor n r r := ⟨Int.le_refl r, h.2.1, fun _ hx _ => hx⟩

theorem isFloor_nest {q p sec r r' : Int} (hd : q ∣ p) (h : IsFloor q sec r) (h' : IsFloor p sec r') : IsFloor p r r' :=
  ⟨h.2.2 r' h'.1 (Int.dvd_trans hd h'.2.1), h'.2.1, fun x hx hx' => h'.2.2 x (Int.le_trans hx h.1) hx'⟩

theorem exact_nest {q p sec r : Int} (hd : q ∣ p) (h : IsFloor q sec r) (e : Exact p sec) : Exact p r := by
  obtain ⟨e1, r', e2, e3⟩ := e
  exact ⟨by have := h.1; omega, r', isFloor_nest hd h e2, e3⟩

theorem exact_coarse {q p sec : Int} (hq : 0 < q) (hd : q ∣ p) (e : Exact p sec) : Exact q sec := by
  obtain ⟨e1, r', e2, e3⟩ := e
  exact ⟨e1, _, isFloor_emod hq, Int.le_trans e3 ((isFloor_emod hq).2.2 r' e2.1 (Int.dvd_trans hd e2.2.1))⟩

/-! ## C38 -/

/-- **C38** The five fixed periods: the result is the greatest whole number of periods since
0001-01-01 that is not after the time, hence the time is in the period it starts. -/
theorem C38_fixed_floor {sec : Int} :
    (Exact 1 sec → IsFloor 1 sec (truncateSec sec) ∧ truncateSec sec = sec) ∧
    (Exact 60 sec → IsFloor 60 sec (truncateMin sec) ∧ truncateMin sec ≤ sec ∧ sec < truncateMin sec + 60) ∧
    (Exact 3600 sec → IsFloor 3600 sec (truncateHour sec) ∧ truncateHour sec ≤ sec ∧ sec < truncateHour sec + 3600) ∧
    (Exact 86400 sec → IsFloor 86400 sec (truncateDay sec) ∧ truncateDay sec ≤ sec ∧ sec < truncateDay sec + 86400) ∧
    (Exact 604800 sec → IsFloor 604800 sec (truncateWeek sec) ∧ truncateWeek sec ≤ sec ∧ sec < truncateWeek sec + 604800) := by
  refine ⟨fun h => ?_, fun h => ?_, fun h => ?_, fun h => ?_, fun h => ?_⟩
  · have h2 := truncate_lt (n := 1) (by decide) (by decide) h
    exact ⟨(truncate_floor (by decide) (by decide) h).1, by unfold truncateSec; omega⟩
  · exact ⟨(truncate_floor (n := 60) (by decide) (by decide) h).1, truncate_lt (n := 60) (by decide) (by decide) h⟩
  · exact ⟨(truncate_floor (n := 3600) (by decide) (by decide) h).1, truncate_lt (n := 3600) (by decide) (by decide) h⟩
  · exact ⟨(truncate_floor (n := 86400) (by decide) (by decide) h).1, truncate_lt (n := 86400) (by decide) (by decide) h⟩
  · exact ⟨(truncate_floor (n := 604800) (by decide) (by decide) h).1, truncate_lt (n := 604800) (by decide) (by decide) h⟩

/-- **C38** Days start at midnight UTC and weeks start on Monday at midnight. -/
theorem C38_monday {sec : Int} (h : Exact 604800 sec) :
    truncateWeek sec % 86400 = 0 ∧ weekday (truncateWeek sec) = 0 ∧ truncateDay sec % 86400 = 0 ∧
      truncateDay sec / 86400 = sec / 86400 := by
  have hw := (C38_fixed_floor (sec := sec)).2.2.2.2 h
  have hd := (C38_fixed_floor (sec := sec)).2.2.2.1 (exact_coarse (by decide) (by decide) h)
  have h1 := hw.1.2.1
  have h2 := hd.1.2.1
  rw [epoch_eq] at h1 h2
  unfold weekday
  omega

/-- **C38** Truncation is idempotent and monotone, and a longer period made of shorter ones absorbs the
truncation to the shorter. -/
theorem C38_compose {p q s t : Int} (hq : q ∈ [1, 60, 3600, 86400, 604800]) (hp : p ∈ [1, 60, 3600, 86400, 604800])
    (hqp : q ≤ p) (hs : Exact p s) (ht : Exact p t) :
    truncate (truncate s p) p = truncate s p ∧ (s ≤ t → truncate s p ≤ truncate t p) ∧
      truncate (truncate s q) p = truncate s p ∧ truncate (truncate s p) q = truncate s p := by
  have hp' : 0 < p ∧ p * 1000000000 < 2 ^ 63 := by
    simp only [List.mem_cons, List.not_mem_nil, or_false] at hp
    rcases hp with rfl | rfl | rfl | rfl | rfl <;> decide
  have hq' : 0 < q ∧ q * 1000000000 < 2 ^ 63 := by
    simp only [List.mem_cons, List.not_mem_nil, or_false] at hq
    rcases hq with rfl | rfl | rfl | rfl | rfl <;> decide
  have hd : q ∣ p := by
    simp only [List.mem_cons, List.not_mem_nil, or_false] at hp hq
    rcases hp with rfl | rfl | rfl | rfl | rfl <;> rcases hq with rfl | rfl | rfl | rfl | rfl <;>
      first | decide | (exfalso; revert hqp; decide)
  obtain ⟨fs, _⟩ := truncate_floor hp'.1 hp'.2 hs
  obtain ⟨ft, _⟩ := truncate_floor hp'.1 hp'.2 ht
  obtain ⟨fq, _⟩ := truncate_floor hq'.1 hq'.2 (exact_coarse hq'.1 hd hs)
  have es : Exact p (truncate s p) := exact_nest (Int.dvd_refl p) fs hs
  refine ⟨?_, fun hst => ft.2.2 _ (Int.le_trans fs.1 hst) fs.2.1, ?_, ?_⟩
  · exact isFloor_unique (truncate_floor hp'.1 hp'.2 es).1 (isFloor_self fs)
  · exact isFloor_unique (truncate_floor hp'.1 hp'.2 (exact_nest hd fq hs)).1 (isFloor_nest hd fq fs)
  · refine isFloor_unique (truncate_floor hq'.1 hq'.2 (exact_coarse hq'.1 hd es)).1 ⟨Int.le_refl _, Int.dvd_trans hd fs.2.1, fun _ h _ => h⟩

/-- Non-vacuity: times before the epoch and after it are in range; 1969-12-31 23:59:59. -/
example : Exact 604800 (-1) ∧ truncateDay (-1) = -86400 ∧ truncateWeek (-1) = -259200 ∧ weekday (-259200) = 0 ∧
    truncateHour 1671234567 = 1671231600 := by
  refine ⟨⟨by decide, -259200, ?_, by decide⟩, by decide, by decide, by decide, by decide⟩
  have := isFloor_emod (n := 604800) (sec := -1) (by decide)
  rwa [show (-1 : Int) - (-1 + epoch) % 604800 = -259200 by decide] at this

/-- **C38** Beyond the range the claim fails: at the first `int64` second the start of the day cannot
be represented and the result is after the time; at the last one the count from 0001 overflows. -/
theorem C38_range_needed : truncateDay (-2 ^ 63) > -2 ^ 63 ∧ ¬ IsFloor 86400 (2 ^ 63 - 1) (truncateDay (2 ^ 63 - 1)) := by
  refine ⟨by decide, fun h => ?_⟩
  have e := isFloor_unique h (isFloor_emod (by decide))
  revert e; decide

/-! ## C39 -/

/-- **C39** (partial: the full statement is for every `n > 0`; what is missing is the periods whose
nanoseconds overflow `int64`, where it is false, see `C39_refuted`.) -/
theorem C39_any_period_partial {n sec : Int} (hn : 0 < n) (hn2 : n ≤ 9223372036) (h : Exact n sec) :
    IsFloor n sec (truncate sec n) ∧ truncate sec n ≤ sec ∧ sec < truncate sec n + n ∧
      truncate (truncate sec n) n = truncate sec n := by
  have hn3 : n * 1000000000 < 2 ^ 63 := by omega
  obtain ⟨fs, _⟩ := truncate_floor hn hn3 h
  obtain ⟨l1, l2⟩ := truncate_lt hn hn3 h
  exact ⟨fs, l1, l2, isFloor_unique (truncate_floor hn hn3 (exact_nest (Int.dvd_refl n) fs h)).1 (isFloor_self fs)⟩

example : Exact 1000 1234567 ∧ truncate 1234567 1000 = 1234000 - 800 + 1000 := by
  refine ⟨⟨by decide, 1234200, ?_, by decide⟩, by decide⟩
  have := isFloor_emod (n := 1000) (sec := 1234567) (by decide)
  rwa [show (1234567 : Int) - (1234567 + epoch) % 1000 = 1234200 by decide] at this

/-- **C39** is false of the code: for a period of 9223372037 seconds (292 years) the duration overflows
to a negative one and the time comes back as it was. -/
theorem C39_refuted : ∃ n sec : Int, 0 < n ∧ InInt64 n ∧ Exact n sec ∧ ¬ IsFloor n sec (truncate sec n) := by
  refine ⟨9223372037, 1, by decide, by unfold InInt64; decide, ⟨by decide, _, isFloor_emod (by decide), by decide⟩, fun h => ?_⟩
  have e := isFloor_unique h (isFloor_emod (by decide))
  revert e; decide

/-- **C39** What the code does for a period that is not positive: the time comes back. -/
theorem C39_nonpositive {n sec : Int} (hs : InInt64 sec) (hn : n ≤ 0) (hn2 : -9223372036 ≤ n) : truncate sec n = sec := by
  have h : wrap64 (second * n) ≤ 0 := by
    rw [wrap64_of_in (by unfold InInt64 second; omega)]; unfold second; omega
  simp only [truncate, Time.truncate, if_pos h, ofUnix, Time.unix]
  exact wrap64_sub_wrap64 hs

/-! ## C40 -/

/-- The first second whose date the `time` package can tell. -/
def firstSecond : Int := -9223372028715321600

/-- **C40** `TruncateYear` is the first second of the year the time is in. -/
theorem C40_year {ys : Int → Int} {ms : Int → Nat → Int} (c : Calendar ys ms) {sec : Int} (hs : InInt64 sec)
    (hr : firstSecond ≤ sec) :
    (∃ y, ys y ≤ sec ∧ sec < ys (y + 1) ∧ truncateYear sec = ys y) ∧
    (∀ y, ys y ≤ sec → sec < ys (y + 1) → truncateYear sec = ys y) ∧
    truncateYear (truncateYear sec) = truncateYear sec := by
  have hr' : 0 ≤ sec + unixToInternal + internalToAbsolute := by
    rw [unixToInternal_eq, internalToAbsolute_eq]; unfold firstSecond at hr; omega
  obtain ⟨y, h1, h2, h3⟩ := truncateYear_eq c hs hr'
  refine ⟨⟨y, h2, h3, h1⟩, fun y' a b => ?_, ?_⟩
  · rw [h1, year_unique c ⟨h2, h3⟩ ⟨a, b⟩]
  · rw [h1]
    have h0 : ys zeroYear ≤ ys y := by
      have h0 := ys_eq c 0
      rw [Int.zero_add, show days 0 = 0 by decide] at h0
      by_contra hc
      have hlt : y + 1 ≤ zeroYear := by
        by_contra hc'
        by_cases e : zeroYear = y
        · rw [e] at hc; omega
        · have := ys_lt c (show zeroYear < y by omega); omega
      have : ys (y + 1) ≤ ys zeroYear := by
        by_cases e : y + 1 = zeroYear
        · rw [e]
        · have := ys_lt c (show y + 1 < zeroYear by omega); omega
      omega
    have hz := ys_eq c 0
    rw [Int.zero_add, show days 0 = 0 by decide] at hz
    have hlt := ys_lt c (show y < y + 1 by omega)
    have hu := unixToInternal_eq
    have hi := internalToAbsolute_eq
    obtain ⟨y', g1, g2, g3⟩ := truncateYear_eq c (sec := ys y) (by unfold InInt64 at hs ⊢; omega) (by omega)
    rw [g1, year_unique c ⟨g2, g3⟩ ⟨Int.le_refl _, hlt⟩]

/-- **C40** `TruncateMonth` is the first second of the month the time is in. -/
theorem C40_month {ys : Int → Int} {ms : Int → Nat → Int} (c : Calendar ys ms) {sec : Int} (hs : InInt64 sec)
    (hr : firstSecond ≤ sec) :
    (∃ y m, 1 ≤ m ∧ m ≤ 12 ∧ ms y m ≤ sec ∧ sec < ms y (m + 1) ∧ truncateMonth sec = ms y m) ∧
    (∀ y m, 1 ≤ m → m ≤ 12 → ms y m ≤ sec → sec < ms y (m + 1) → truncateMonth sec = ms y m) ∧
    truncateMonth (truncateMonth sec) = truncateMonth sec ∧ truncateYear (truncateMonth sec) = truncateYear sec := by
  have hr' : 0 ≤ sec + unixToInternal + internalToAbsolute := by
    rw [unixToInternal_eq, internalToAbsolute_eq]; unfold firstSecond at hr; omega
  obtain ⟨y, m, m1, m2, h1, h2, h3⟩ := truncateMonth_eq c hs hr'
  have hy := month_in_year c m1 m2 ⟨h2, h3⟩
  have hge := ms_mono c y (Nat.le_refl 1) m1 (by omega)
  rw [c.jan] at hge
  have h4 := (C40_year c hs hr).2.1 y hy.1 hy.2
  -- the year starts in range
  have h5 : firstSecond ≤ ys y := by
    obtain ⟨y', e1, e2, e3, _⟩ := date_spec c hs hr'
    have := year_unique c (a := y) (b := y' + zeroYear) hy ⟨by omega, by rw [c.year]; omega⟩
    rw [this, ys_eq c]
    have hd : (365 * (y' : Int)) ≤ days y' := by unfold days; omega
    rw [unixToInternal_eq, internalToAbsolute_eq]; unfold firstSecond; omega
  have hin : InInt64 (ms y m) := by unfold InInt64 at hs ⊢; unfold firstSecond at h5; omega
  have hlt : ms y m < ms y (m + 1) := by omega
  refine ⟨⟨y, m, m1, m2, h2, h3, h1⟩, fun y' m' a b c' d => ?_, ?_, ?_⟩
  · obtain ⟨e, e'⟩ := month_unique c m1 m2 a b ⟨h2, h3⟩ ⟨c', d⟩
    rw [h1, e, e']
  · rw [h1]
    obtain ⟨y', m', k1, k2, g1, g2, g3⟩ := truncateMonth_eq c (sec := ms y m) hin
      (by rw [unixToInternal_eq, internalToAbsolute_eq]; unfold firstSecond at h5; omega)
    obtain ⟨e, e'⟩ := month_unique c k1 k2 m1 m2 ⟨g2, g3⟩ ⟨Int.le_refl _, hlt⟩
    rw [g1, e, e']
  · rw [h1, h4]
    exact (C40_year c hin (by omega)).2.1 y hge (by omega)

/-- Non-vacuity: there is a calendar; 1600-02-29 (a leap year) and 1900-03-01 (after a February of 28 days). -/
example : (∃ (ys : Int → Int) (ms : Int → Nat → Int), Calendar ys ms) ∧
    truncateMonth (-11670998400) = -11670998400 - 28 * 86400 ∧ truncateYear (-2203891200) = -2208988800 ∧
    truncateMonth (-2203891200 - 1) = -2203891200 - 28 * 86400 :=
  ⟨calendar_exists, by decide, by decide, by decide⟩

/-- **C40** Just before the range (the last second of the year -292277022400) the code does not give
the start of the year. -/
theorem C40_range_needed {ys : Int → Int} {ms : Int → Nat → Int} (c : Calendar ys ms) :
    InInt64 (firstSecond - 1) ∧ ys (-292277022400) ≤ firstSecond - 1 ∧ firstSecond - 1 < ys (-292277022400 + 1) ∧
      truncateYear (firstSecond - 1) ≠ ys (-292277022400) := by
  have h1 := ys_eq c (-1)
  have h2 := ys_eq c 0
  rw [show -1 + zeroYear = -292277022400 by decide] at h1
  rw [show 0 + zeroYear = -292277022400 + 1 by decide] at h2
  rw [h1, h2]
  refine ⟨by unfold InInt64; decide, by decide, by decide, by decide⟩

end Verif.Trunc
