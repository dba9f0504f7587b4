import Verif.TruncCal.Lemmas
/-!
# C136: months and years respect the order of times and the finer units
-/
namespace Verif.TruncCal
open Verif.Go Verif.Trunc

/-- **C136** `TruncateMonth` and `TruncateYear` respect the order of times, and a year starts no later than the month. -/
theorem C136_order {s t : Int} (hs : InInt64 s) (ht : InInt64 t) (hr : firstSecond ≤ s) (hst : s ≤ t) :
    truncateMonth s ≤ truncateMonth t ∧ truncateYear s ≤ truncateYear t ∧ truncateYear s ≤ truncateMonth s ∧ truncateMonth s ≤ s := by
  obtain ⟨ys, ms, c⟩ := calendar_exists
  have m1 := truncateMonth_start c hs hr
  have y1 := truncateYear_start c hs hr
  have m2 := truncateMonth_start c ht (by omega)
  have y2 := truncateYear_start c ht (by omega)
  refine ⟨start_mono c m1 m2 hst, startY_mono c y1 y2 hst, (year_month c y1 m1).1, ?_⟩
  obtain ⟨_, _, _, _, _, h, _⟩ := m1
  exact h

/-- **C136** Times with the same month, or year, have no time of another month, or year, between them. -/
theorem C136_convex {s t u : Int} (hs : InInt64 s) (ht : InInt64 t) (hr : firstSecond ≤ s) (hsu : s ≤ u) (hut : u ≤ t) :
    (truncateMonth s = truncateMonth t → truncateMonth u = truncateMonth s) ∧
    (truncateYear s = truncateYear t → truncateYear u = truncateYear s) := by
  have hu : InInt64 u := by unfold InInt64 at *; omega
  have h1 := C136_order hs hu hr hsu
  have h2 := C136_order hu ht (by omega) hut
  omega

/-- **C136** Seconds, minutes, hours, days, months and years nest: truncating to a finer unit first changes nothing, and
neither does truncating to it afterwards. -/
theorem C136_nest {q s : Int} (hq : q ∈ [1, 60, 3600, 86400]) (hs : Exact 86400 s) (hr : firstSecond ≤ s) :
    truncateMonth (truncate s q) = truncateMonth s ∧ truncate (truncateMonth s) q = truncateMonth s ∧
    truncateYear (truncate s q) = truncateYear s ∧ truncate (truncateYear s) q = truncateYear s ∧
    truncateYear (truncateMonth s) = truncateYear s ∧ truncateMonth (truncateYear s) = truncateYear s := by
  obtain ⟨ys, ms, c⟩ := calendar_exists
  have hq' : 0 < q ∧ q * 1000000000 < 2 ^ 63 ∧ q ∣ 86400 := by
    simp only [List.mem_cons, List.not_mem_nil, or_false] at hq
    rcases hq with rfl | rfl | rfl | rfl <;> decide
  have hin : ∀ x, firstSecond ≤ x → x ≤ s → InInt64 x := by
    intro x h1 h2
    have := hs.1
    rw [epoch_eq] at this
    unfold InInt64 firstSecond at *
    omega
  have hsi := hin s hr (Int.le_refl _)
  have m1 := truncateMonth_start c hsi hr
  have y1 := truncateYear_start c hsi hr
  obtain ⟨hym, my, ym⟩ := year_month c y1 m1
  have f0 := first_startY c
  have ge := startY_mono c f0 y1 hr
  obtain ⟨fl, -⟩ := truncate_floor hq'.1 hq'.2.1 (exact_coarse hq'.1 hq'.2.2 hs)
  obtain ⟨mr, hmr⟩ := start_floor c hq'.2.2 m1 fl
  have hle : truncateMonth s ≤ s := by obtain ⟨_, _, _, _, _, h, _⟩ := m1; exact h
  have hri := hin _ (by omega) fl.1
  have hmi := hin (truncateMonth s) (by omega) hle
  have hyi := hin (truncateYear s) ge (by omega)
  -- the start of a month is the start of a finer unit
  have fine : ∀ x, firstSecond ≤ x → x ≤ s → Start ms x x → truncate x q = x := by
    intro x h1 h2 h3
    have hf : IsFloor 86400 x x := ⟨Int.le_refl _, dvd_month c h3, fun _ h _ => h⟩
    have hx : Exact 86400 x := ⟨by have := hs.1; omega, x, hf, by unfold firstSecond at h1; omega⟩
    exact isFloor_unique (truncate_floor hq'.1 hq'.2.1 (exact_coarse hq'.1 hq'.2.2 hx)).1
      ⟨Int.le_refl _, Int.dvd_trans hq'.2.2 (dvd_month c h3), fun _ h _ => h⟩
  refine ⟨?_, fine _ (by omega) hle (start_self m1), ?_, fine _ ge (by omega) my, ?_, ?_⟩
  · exact start_unique c (truncateMonth_start c hri (by omega)) mr
  · refine startY_unique c (truncateYear_start c hri (by omega)) ?_
    obtain ⟨y, e1, e2, e3⟩ := y1
    exact ⟨y, e1, by omega, by have := fl.1; omega⟩
  · exact startY_unique c (truncateYear_start c hmi (by omega)) ym
  · exact start_unique c (truncateMonth_start c hyi ge) my

/-- Weeks do not nest in months: the week of the first of November 2026 starts in October. -/
theorem C136_weeks : truncateMonth (truncateWeek 1793491200) < truncateMonth 1793491200 ∧
    truncateMonth 1793491200 = 1793491200 := by decide

/-- The hypotheses hold for a time in 2026 and one long before 1970. -/
example : Exact 86400 1794931599 ∧ firstSecond ≤ 1794931599 ∧ truncateMonth 1794931599 = 1793491200 ∧ firstSecond ≤ -2203891201 := by
  refine ⟨⟨by decide, _, isFloor_emod (by decide), by decide⟩, by decide, by decide, by decide⟩

end Verif.TruncCal
