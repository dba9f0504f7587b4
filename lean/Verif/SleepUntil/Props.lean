import Verif.SleepUntil.Spec
import Verif.Diff.Props
/-!
# C114: `timex.Custom`; C115: `SleepUntil` sleeps until the instant has come
-/
namespace Verif.SleepUntil
open Verif.Go
open Verif.Diff (Reading sub subWall subMono sat)
open Verif.Trunc (Time)

/-! ## C114 -/

/-- C114 in full. It is false. -/
def C114_full : Prop := ∀ sec nsec, InInt64 sec → InInt64 nsec → unixNanos (custom sec nsec) = sec * 1000000000 + nsec

theorem custom_eq (sec nsec : Int) : custom sec nsec = ⟨wrap64 (sec + epoch + nsec / 1000000000), nsec % 1000000000, none⟩ := by
  have hq := Int.mul_tdiv_add_tmod nsec 1000000000
  have hr1 := Int.tmod_lt_of_pos nsec (show (0 : Int) < 1000000000 by decide)
  have hr2 := Int.lt_tmod_of_pos nsec (show (0 : Int) < 1000000000 by decide)
  have hr3 : 0 ≤ nsec → 0 ≤ nsec.tmod 1000000000 := fun h => Int.tmod_nonneg _ h
  have hK : Trunc.unixToInternal = 62135596800 := by decide
  have hE : epoch = 62135596800 := by decide
  simp only [custom, hK, hE]
  generalize nsec.tdiv 1000000000 = q at *
  generalize nsec.tmod 1000000000 = r at *
  split
  · split
    · simp only [Reading.mk.injEq, and_true]
      unfold wrap64; omega
    · simp only [Reading.mk.injEq, and_true]
      unfold wrap64; omega
  · simp only [Reading.mk.injEq, and_true]
    unfold wrap64; omega

/-- **C114**: for every two numbers the result of `Custom` is a time, with nanoseconds below a second and no monotonic reading. -/
theorem C114_time (sec nsec : Int) : IsTime (custom sec nsec) ∧ (custom sec nsec).mono = none := by
  have := wrap64_in (sec + epoch + nsec / 1000000000)
  unfold InInt64 at this
  rw [custom_eq]
  refine ⟨⟨?_, ?_, ?_, ?_, ?_⟩, rfl⟩ <;> dsimp only <;> first | omega | (intro _ h; cases h)

/-- **C114, what does hold**: `Custom(sec, nsec)` is the instant `sec` seconds and `nsec` nanoseconds after the epoch (`nsec` may be negative
or more than a second) exactly when its seconds since the year 1 fit an `int64`. Missing from the full claim: the 62135596800 last
values of `sec` (a few more or less as `nsec` goes). -/
theorem C114_partial (sec nsec : Int) : unixNanos (custom sec nsec) = sec * 1000000000 + nsec ↔
    InInt64 (sec + epoch + nsec / 1000000000) := by
  have hin := wrap64_in (sec + epoch + nsec / 1000000000)
  rw [custom_eq]
  unfold unixNanos
  dsimp only
  constructor
  · intro h
    have : wrap64 (sec + epoch + nsec / 1000000000) = sec + epoch + nsec / 1000000000 := by omega
    rwa [this] at hin
  · intro h
    rw [wrap64_of_in h]
    omega

/-- **C114**: otherwise the instant is off by 2^64 seconds. -/
theorem C114_wrapped (sec nsec : Int) : ∃ k : Int, unixNanos (custom sec nsec) = (sec + k * 2 ^ 64) * 1000000000 + nsec := by
  rw [custom_eq]
  refine ⟨(wrap64 (sec + epoch + nsec / 1000000000) - (sec + epoch + nsec / 1000000000)) / 2 ^ 64, ?_⟩
  unfold unixNanos wrap64
  dsimp only
  omega

/-- **C114 is false**: the last second is taken for one in the past. -/
theorem C114_refuted : ¬ C114_full ∧ unixNanos (custom (2 ^ 63 - 1) 0) < 0 := by
  have h : unixNanos (custom (2 ^ 63 - 1) 0) < 0 := by decide
  refine ⟨fun hf => ?_, h⟩
  rw [hf (2 ^ 63 - 1) 0 (by unfold InInt64; omega) (by unfold InInt64; omega)] at h
  omega

/-- Half a second before 2001-09-09 01:46:40, told with a negative number of nanoseconds. -/
example : custom 1000000000 (-500000000) = ⟨999999999 + epoch, 500000000, none⟩ ∧ unixNanos (custom 1000000000 (-500000000)) = 999999999500000000 := by
  decide

/-! ## C115 -/

/-- C115 in full: whenever the timer has run, `t` has come. It is false. -/
def C115_full : Prop := ∀ t now, IsTime t → IsNow now → ∀ e back, 0 ≤ e → timer t now ≤ e → Elapsed now e back → Come t back

theorem subWall_sat {t u : Time} (ht1 : -2 ^ 63 ≤ t.ext) (ht2 : t.ext < 2 ^ 63) (ht3 : 0 ≤ t.nsec) (ht4 : t.nsec < 1000000000)
    (h1 : 0 ≤ u.ext) (h2 : u.ext < 2 ^ 62) (h3 : 0 ≤ u.nsec) (h4 : u.nsec < 1000000000) :
    subWall t u = sat (t.ext * 1000000000 + t.nsec - (u.ext * 1000000000 + u.nsec)) := by
  simp only [subWall]
  have hin := wrap64_in (wrap64 (wrap64 (t.ext - u.ext) * 1000000000) + (t.nsec - u.nsec))
  have hval : wrap64 (wrap64 (wrap64 (t.ext - u.ext) * 1000000000) + (t.nsec - u.nsec)) =
      wrap64 (t.ext * 1000000000 + t.nsec - (u.ext * 1000000000 + u.nsec)) := by
    unfold wrap64; omega
  rw [hval] at hin ⊢
  generalize hd : wrap64 (t.ext * 1000000000 + t.nsec - (u.ext * 1000000000 + u.nsec)) = d at hin ⊢
  obtain ⟨a1, a2, a3⟩ := Diff.add_exact (u := u) (by omega) h2 h3 h4 hin
  generalize (u.add d).ext = be at *
  generalize (u.add d).nsec = bn at *
  unfold InInt64 at hin
  unfold sat
  split
  · omega
  · have hne : ¬ InInt64 (t.ext * 1000000000 + t.nsec - (u.ext * 1000000000 + u.nsec)) := by
      intro h
      rw [wrap64_of_in h] at hd
      omega
    unfold InInt64 at hne
    split <;> omega

/-- **C115, the timer**: it is armed with the time that is left until `t`, or with the longest (shortest) duration there is. -/
theorem C115_timer {t now : Reading} (ht : IsTime t) (hn : IsNow now) : timer t now = max (-2 ^ 63) (min (2 ^ 63 - 1) (ahead t now)) := by
  obtain ⟨t1, t2, t3, t4, t5⟩ := ht
  obtain ⟨⟨_, _, n3, n4, n5⟩, n6, n7⟩ := hn
  obtain ⟨ts, tn, tm⟩ := t
  obtain ⟨ns, nn, nm⟩ := now
  have hw := subWall_sat (t := ⟨ts, tn⟩) (u := ⟨ns, nn⟩) t1 t2 t3 t4 n6 n7 n3 n4
  have e : ts * 1000000000 + tn - (ns * 1000000000 + nn) = (ts - epoch) * 1000000000 + tn - ((ns - epoch) * 1000000000 + nn) := by omega
  dsimp only at hw
  rw [e] at hw
  cases tm with
  | none => simpa [timer, sub, ahead, unixNanos, sat] using hw
  | some a =>
    cases nm with
    | none => simpa [timer, sub, ahead, unixNanos, sat] using hw
    | some b =>
      have := Diff.subMono_eq (a := a) (b := b) (t5 a rfl) (n5 b rfl)
      simpa [timer, sub, ahead, sat] using this

theorem ahead_elapsed {t now back : Reading} {e : Int} (h : Elapsed now e back) : ahead t back = ahead t now - e := by
  obtain ⟨h1, h2⟩ := h
  unfold ahead
  rw [h2]
  cases t.mono <;> cases now.mono <;> simp only [Option.map_some, Option.map_none, h1] <;> omega

/-- **C115, what does hold**: when the timer has run, `t` has come, if it was less than 2^63 nanoseconds (292 years) ahead. Missing from the full claim:
instants further ahead. -/
theorem C115_partial {t now : Reading} (ht : IsTime t) (hn : IsNow now) (hr : ahead t now < 2 ^ 63) {e : Int} {back : Reading}
    (he : 0 ≤ e) (hfire : timer t now ≤ e) (hb : Elapsed now e back) : Come t back := by
  rw [C115_timer ht hn] at hfire
  unfold Come
  rw [ahead_elapsed hb]
  omega

/-- **C115**: the timer is never longer than it has to be: as long as it runs `t` has not come, for every instant `t`; and for an
instant that has come it does not run. -/
theorem C115_not_late {t now : Reading} (ht : IsTime t) (hn : IsNow now) :
    (∀ e back, 0 ≤ e → e < timer t now → Elapsed now e back → ¬ Come t back) ∧ (Come t now → timer t now ≤ 0) := by
  constructor
  · intro e back he hlt hb
    rw [C115_timer ht hn] at hlt
    unfold Come
    rw [ahead_elapsed hb]
    omega
  · intro h
    rw [C115_timer ht hn]
    unfold Come at h
    omega

/-- **C115, with `Custom`**: the timer for a Unix time less than 292 years ahead. -/
theorem C115_custom {sec nsec : Int} {now : Reading} (hn : IsNow now) (hr : -2 ^ 63 ≤ sec * 1000000000 + nsec - unixNanos now)
    (hr2 : sec * 1000000000 + nsec - unixNanos now < 2 ^ 63) : timer (custom sec nsec) now = sec * 1000000000 + nsec - unixNanos now := by
  have hE : epoch = 62135596800 := by decide
  have hx : unixNanos (custom sec nsec) = sec * 1000000000 + nsec := by
    rw [C114_partial]
    obtain ⟨⟨_, _, n3, n4, _⟩, n6, n7⟩ := hn
    unfold unixNanos at hr hr2
    unfold InInt64
    omega
  have ha : ahead (custom sec nsec) now = sec * 1000000000 + nsec - unixNanos now := by
    unfold ahead
    rw [(C114_time sec nsec).2, hx]
  rw [C115_timer (C114_time sec nsec).1 hn, ha]
  omega

/-- **C115 is false**: in 2024, asked to sleep until 2400, the sleeper has slept in 2316. And for the end of time it does not sleep at all. -/
theorem C115_refuted : ¬ C115_full ∧ (∃ now, IsNow now ∧ timer (custom (2 ^ 63 - 1) 0) now < 0) := by
  have hnow : IsNow (custom 1704067200 0) := by
    refine ⟨(C114_time _ _).1, ?_⟩
    decide
  refine ⟨fun hf => ?_, custom 1704067200 0, hnow, by decide⟩
  have := hf (custom 13569465600 0) (custom 1704067200 0) (C114_time _ _).1 hnow (2 ^ 63 - 1) (custom 10927439236 854775807) (by omega) (by decide)
    ⟨by decide, rfl⟩
  revert this
  unfold Come
  decide

/-- An hour ahead on the monotonic clock, the wall clock having been set back meanwhile. -/
example : timer ⟨63800003600, 0, some 3600000000007⟩ ⟨63700000000, 0, some 7⟩ = 3600000000000 := by decide

end Verif.SleepUntil
