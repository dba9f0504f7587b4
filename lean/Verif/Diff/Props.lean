import Verif.Diff.Spec
/-!
# Property C47: `Differ`
-/
namespace Verif.Diff
open Verif.Go
open Verif.Trunc (Time)

theorem subMono_eq {a b : Int} (ha : InInt64 a) (hb : InInt64 b) : subMono a b = sat (a - b) := by
  unfold InInt64 at ha hb
  simp only [subMono, sat]
  unfold wrap64
  split
  · omega
  · split <;> omega

/-- `Add` on times far from the ends of the range is exact. -/
theorem add_exact {u : Time} {d : Int} (h1 : -2 ^ 62 ≤ u.ext) (h2 : u.ext < 2 ^ 62) (h3 : 0 ≤ u.nsec) (h4 : u.nsec < 1000000000)
    (hd : InInt64 d) : (u.add d).ext * 1000000000 + (u.add d).nsec = u.ext * 1000000000 + u.nsec + d ∧
      0 ≤ (u.add d).nsec ∧ (u.add d).nsec < 1000000000 := by
  unfold InInt64 at hd
  have hq := Int.mul_tdiv_add_tmod d 1000000000
  have hr1 := Int.tmod_lt_of_pos d (show (0 : Int) < 1000000000 by decide)
  have hr2 := Int.lt_tmod_of_pos d (show (0 : Int) < 1000000000 by decide)
  have hadd : ∀ k, -2 ^ 62 ≤ k → k < 2 ^ 62 → Trunc.addSec u.ext k = u.ext + k := by
    intro k hk1 hk2
    have : wrap64 (u.ext + k) = u.ext + k := wrap64_of_in (by unfold InInt64; omega)
    simp only [Trunc.addSec, this]
    rw [if_pos]
    rw [decide_eq_decide]; omega
  simp only [Time.add]
  generalize d.tdiv 1000000000 = q at *
  generalize d.tmod 1000000000 = r at *
  split
  · rw [hadd _ (by omega) (by omega)]; dsimp only; omega
  · split
    · rw [hadd _ (by omega) (by omega)]; dsimp only; omega
    · rw [hadd _ (by omega) (by omega)]; dsimp only; omega

theorem subWall_eq {t u : Time} (ht1 : -2 ^ 62 ≤ t.ext) (ht2 : t.ext < 2 ^ 62) (ht3 : 0 ≤ t.nsec) (ht4 : t.nsec < 1000000000)
    (h1 : -2 ^ 62 ≤ u.ext) (h2 : u.ext < 2 ^ 62) (h3 : 0 ≤ u.nsec) (h4 : u.nsec < 1000000000) :
    subWall t u = sat (t.ext * 1000000000 + t.nsec - (u.ext * 1000000000 + u.nsec)) := by
  simp only [subWall]
  have hin := wrap64_in (wrap64 (wrap64 (t.ext - u.ext) * 1000000000) + (t.nsec - u.nsec))
  have hval : wrap64 (wrap64 (wrap64 (t.ext - u.ext) * 1000000000) + (t.nsec - u.nsec)) =
      wrap64 (t.ext * 1000000000 + t.nsec - (u.ext * 1000000000 + u.nsec)) := by
    rw [wrap64_of_in (x := t.ext - u.ext) (by unfold InInt64; omega)]
    unfold wrap64; omega
  rw [hval] at hin ⊢
  generalize hd : wrap64 (t.ext * 1000000000 + t.nsec - (u.ext * 1000000000 + u.nsec)) = d at hin ⊢
  obtain ⟨a1, a2, a3⟩ := add_exact h1 h2 h3 h4 hin
  generalize (u.add d).ext = be at *
  generalize (u.add d).nsec = bn at *
  unfold InInt64 at hin
  unfold sat
  split
  · omega
  · have hne : ¬ InInt64 (t.ext * 1000000000 + t.nsec - (u.ext * 1000000000 + u.nsec)) := by
      intro h
      rw [wrap64_of_in h] at hd
      omega
    unfold InInt64 at hne
    split <;> omega

/-- **C47** After any history of `Start` and `End`, whatever the clock reads, `GetStart` and `GetEnd` are
the readings of the latest `Start` and `End` (the zero time before any). -/
theorem C47_readings (h : List Call) : (new.run h).getStart = lastStart h ∧ (new.run h).getEnd = lastEnd h := by
  have key : ∀ (h : List Call) (d : Differ), (d.run h).start =
      ((h.reverse.filterMap fun | .start r => some r | .fin _ => none).head?).getD d.start ∧ (d.run h).fin =
      ((h.reverse.filterMap fun | .fin r => some r | .start _ => none).head?).getD d.fin := by
    intro h
    induction h with
    | nil => intro d; simp [Differ.run]
    | cons c cs ih =>
      intro d
      cases c with
      | start now =>
        obtain ⟨i1, i2⟩ := ih (d.startAt now)
        simp only [Differ.run, i1, i2, List.reverse_cons, List.filterMap_append, List.head?_append]
        constructor
        · generalize List.filterMap _ cs.reverse = l
          cases l <;> rfl
        · generalize List.filterMap _ cs.reverse = l
          cases l <;> rfl
      | fin now =>
        obtain ⟨i1, i2⟩ := ih (d.endAt now)
        simp only [Differ.run, i1, i2, List.reverse_cons, List.filterMap_append, List.head?_append]
        constructor
        · generalize List.filterMap _ cs.reverse = l
          cases l <;> rfl
        · generalize List.filterMap _ cs.reverse = l
          cases l <;> rfl
  exact key h new

/-- **C47** `GetDiff` is the difference of these two readings, saturated to what a `time.Duration` can
hold. -/
theorem C47_diff (h : List Call) (hs : Sane (lastStart h)) (he : Sane (lastEnd h)) :
    (new.run h).getDiff = gap (lastEnd h) (lastStart h) := by
  obtain ⟨r1, r2⟩ := C47_readings h
  unfold Differ.getStart at r1
  unfold Differ.getEnd at r2
  unfold Differ.getDiff
  rw [r1, r2]
  generalize lastStart h = u at *
  generalize lastEnd h = t at *
  obtain ⟨us, un, um⟩ := u
  obtain ⟨ts, tn, tm⟩ := t
  obtain ⟨a1, a2, a3, a4, a5⟩ := hs
  obtain ⟨b1, b2, b3, b4, b5⟩ := he
  have hwall := subWall_eq (t := ⟨ts, tn⟩) (u := ⟨us, un⟩) b1 b2 b3 b4 a1 a2 a3 a4
  cases tm with
  | none => simpa [sub, gap, Reading.nanos] using hwall
  | some a =>
    cases um with
    | none => simpa [sub, gap, Reading.nanos] using hwall
    | some b => exact subMono_eq (b5 a rfl) (a5 b rfl)

/-- Non-vacuity: a second `Start` replaces the first; `End` before any `Start` measures from the zero
time, too long for a duration. -/
example : (new.run [.start ⟨63800000000, 5, none⟩, .start ⟨63800000001, 7, none⟩, .fin ⟨63800000003, 2, none⟩]).getDiff = 1999999995 ∧
    (new.run [.fin ⟨63800000003, 2, some 77⟩]).getDiff = 2 ^ 63 - 1 ∧
    (new.run [.start ⟨63800000009, 0, some 1000⟩, .fin ⟨63800000003, 0, some 1500⟩]).getDiff = 500 := by decide

end Verif.Diff
