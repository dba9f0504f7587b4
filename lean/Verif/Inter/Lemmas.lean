import Verif.Inter.Spec
import Mathlib.Data.List.Basic
import Mathlib.Data.List.Perm.Basic
/-!
# Lemmas about the scans
-/
namespace Verif.Inter
open Verif.Go

/-- Lower edges minus upper edges, or the reverse. -/
def total (sgn : Int) (l : List Tuple) : Int := (l.map fun t => sgn * t.typ).sum

def zeros (l : List Tuple) : Nat := l.countP fun t => decide (t.typ = 0)

theorem scan_cases (sgn need : Int) : ∀ (s : List Tuple) (en mid : Int),
    (∃ pre t post, s = pre ++ t :: post ∧ scan sgn need s en mid = (some t.off, mid + zeros pre) ∧
      en + total sgn (pre ++ [t]) ≥ need ∧ ∀ p t', (p ++ [t']) <+: pre → en + total sgn (p ++ [t']) < need) ∨
    (scan sgn need s en mid = (none, mid + zeros s) ∧ ∀ p t', (p ++ [t']) <+: s → en + total sgn (p ++ [t']) < need) := by
  intro s
  induction s with
  | nil => intro en mid; right; refine ⟨by simp [scan, zeros], fun p t' h => by simp at h⟩
  | cons t ts ih =>
    intro en mid
    by_cases h : en + sgn * t.typ ≥ need
    · left
      exact ⟨[], t, ts, rfl, by simp [scan, h, zeros], by simpa [total] using h, fun p t' h => by simp at h⟩
    · have hz : ∀ l, (if t.typ = 0 then mid + 1 else mid) + (zeros l : Int) = mid + zeros (t :: l) := by
        intro l; unfold zeros; by_cases h0 : t.typ = 0 <;> simp [h0] <;> omega
      have hpre : ∀ l, (∀ p t', (p ++ [t']) <+: l → en + sgn * t.typ + total sgn (p ++ [t']) < need) →
          ∀ p t', (p ++ [t']) <+: t :: l → en + total sgn (p ++ [t']) < need := by
        intro l hl p t' hp
        cases p with
        | nil =>
          obtain rfl : t' = t := by simpa using hp
          simpa [total] using h
        | cons q p =>
          rw [List.cons_append, List.cons_prefix_cons] at hp
          obtain ⟨rfl, hp⟩ := hp
          have := hl p t' hp
          simp only [total, List.cons_append, List.map_cons, List.sum_cons] at this ⊢
          omega
      rcases ih (en + sgn * t.typ) (if t.typ = 0 then mid + 1 else mid) with ⟨pre, u, post, e, e1, e2, e3⟩ | ⟨e1, e3⟩
      · left
        refine ⟨t :: pre, u, post, by rw [e]; rfl, ?_, ?_, hpre pre e3⟩
        · rw [← hz]; simp only [scan, h, if_false]; exact e1
        · simp only [total, List.cons_append, List.map_cons, List.sum_cons] at e2 ⊢; omega
      · right
        refine ⟨?_, hpre ts e3⟩
        rw [← hz]; simp only [scan, h, if_false]; exact e1

/-- Types are -1, 0, 1. -/
def Typed (l : List Tuple) : Prop := ∀ t ∈ l, t.typ = -1 ∨ t.typ = 0 ∨ t.typ = 1

def edges (k : Int) (l : List Tuple) : Nat := l.countP fun t => decide (t.typ = k)

theorem total_eq {l : List Tuple} (h : Typed l) : total (-1) l = edges (-1) l - edges 1 l ∧ total 1 l = edges 1 l - edges (-1) l := by
  induction l with
  | nil => simp [total, edges]
  | cons t ts ih =>
    obtain ⟨i1, i2⟩ := ih (fun u hu => h u (List.mem_cons_of_mem _ hu))
    simp only [total, edges, List.map_cons, List.sum_cons, List.countP_cons] at *
    rw [i1, i2]
    rcases h t (List.mem_cons_self ..) with e | e | e <;> simp [e] <;> omega

theorem typed_tuples (is : List Interval) : Typed (tuples is) := by
  induction is with
  | nil => intro t h; simp [tuples] at h
  | cons i is ih =>
    intro t h
    simp only [tuples, List.mem_cons] at h
    rcases h with rfl | rfl | rfl | h
    · simp
    · simp
    · simp
    · exact ih t h

theorem length_tuples (is : List Interval) : (tuples is).length = 3 * is.length := by
  induction is with
  | nil => rfl
  | cons i is ih => simp only [tuples, List.length_cons, ih]; omega

/-- Counting edges up to or before a point, in intervals. -/
theorem count_tuples {is : List Interval} (h : ∀ i ∈ is, Sane i) (q : Int → Bool) :
    (tuples is).countP (fun t => decide (t.typ = -1) && q t.off) = is.countP (fun i => q i.low) ∧
    (tuples is).countP (fun t => decide (t.typ = 0) && q t.off) = is.countP (fun i => q i.off) ∧
    (tuples is).countP (fun t => decide (t.typ = 1) && q t.off) = is.countP (fun i => q i.up) := by
  induction is with
  | nil => simp [tuples]
  | cons i is ih =>
    obtain ⟨i1, i2, i3⟩ := ih (fun u hu => h u (List.mem_cons_of_mem _ hu))
    obtain ⟨_, h1, h2⟩ := h i (List.mem_cons_self ..)
    have e1 : wrap64 (i.off - i.band) = i.low := wrap64_of_in h1
    have e2 : wrap64 (i.off + i.band) = i.up := wrap64_of_in h2
    simp only [tuples, List.countP_cons, i1, i2, i3, e1, e2]
    simp

theorem sorted_split {s pre post : List Tuple} {t : Tuple} (hs : s.Pairwise fun a b => less b a = false)
    (e : s = pre ++ t :: post) : (∀ u ∈ pre, u.off ≤ t.off) ∧ ∀ u ∈ post, t.off ≤ u.off := by
  rw [e, List.pairwise_append, List.pairwise_cons] at hs
  obtain ⟨_, ⟨h1, _⟩, h2⟩ := hs
  refine ⟨fun u hu => ?_, fun u hu => ?_⟩
  · have := h2 u hu t (List.mem_cons_self ..); simp [less] at this; omega
  · have := h1 u hu; simp [less] at this; omega

theorem containing_ge (is : List Interval) (x : Int) :
    is.countP (fun i => decide (i.low ≤ x)) ≤ containing is x + is.countP (fun i => decide (i.up < x)) := by
  unfold containing
  induction is with
  | nil => simp
  | cons i is ih =>
    simp only [List.countP_cons, decide_eq_true_eq]
    split_ifs <;> omega

theorem containing_ge' (is : List Interval) (x : Int) :
    is.countP (fun i => decide (x ≤ i.up)) ≤ containing is x + is.countP (fun i => decide (x < i.low)) := by
  unfold containing
  induction is with
  | nil => simp
  | cons i is ih =>
    simp only [List.countP_cons, decide_eq_true_eq]
    split_ifs <;> omega

theorem outside_eq (is : List Interval) {a b : Int} (h : a ≤ b) :
    outside is a b = is.countP (fun i => decide (i.off < a)) + is.countP (fun i => decide (b < i.off)) := by
  unfold outside
  induction is with
  | nil => simp
  | cons i is ih =>
    simp only [List.countP_cons, ih, decide_eq_true_eq]
    split_ifs <;> omega

theorem sorted_split' {s pre post : List Tuple} {t : Tuple} (hs : s.Pairwise fun a b => less b a = false)
    (e : s.reverse = pre ++ t :: post) : (∀ u ∈ pre, t.off ≤ u.off) ∧ ∀ u ∈ post, u.off ≤ t.off := by
  have e' : s = post.reverse ++ t :: pre.reverse := by
    rw [← List.reverse_reverse s, e]; simp
  obtain ⟨h1, h2⟩ := sorted_split hs e'
  exact ⟨fun u hu => h2 u (by simpa using hu), fun u hu => h1 u (by simpa using hu)⟩

/-- What a successful scan in order says. -/
theorem scan_up {is : List Interval} (h : ∀ i ∈ is, Sane i) {s pre post : List Tuple} {t : Tuple} (hs : SortedTo (tuples is) s)
    (e : s = pre ++ t :: post) {need : Int} (hn : total (-1) (pre ++ [t]) ≥ need) :
    need ≤ containing is t.off ∧ is.countP (fun i => decide (i.off < t.off)) ≤ zeros pre := by
  have hty : Typed s := fun u hu => typed_tuples is u (hs.1.subset hu)
  obtain ⟨hpre, hpost⟩ := sorted_split hs.2 e
  have hsub : ∀ u ∈ pre ++ [t], u ∈ s := by
    intro u hu; rw [e]; simp at hu ⊢; tauto
  have h1 := (total_eq (l := pre ++ [t]) (fun u hu => hty u (hsub u hu))).1
  obtain ⟨c1, _, _⟩ := count_tuples h (fun x => decide (x ≤ t.off))
  obtain ⟨_, d2, d3⟩ := count_tuples h (fun x => decide (x < t.off))
  have hc := containing_ge is t.off
  rw [← c1, ← d3, ← hs.1.countP_eq, ← hs.1.countP_eq, e] at hc
  rw [← hs.1.countP_eq, e] at d2
  rw [← d2]
  have k1 : edges (-1) (pre ++ [t]) ≤
      (pre ++ t :: post).countP (fun u => decide (u.typ = -1) && decide (u.off ≤ t.off)) := by
    rw [show pre ++ t :: post = (pre ++ [t]) ++ post by simp, List.countP_append]
    unfold edges
    have : List.countP (fun u : Tuple => decide (u.typ = -1)) (pre ++ [t]) ≤
        List.countP (fun u => decide (u.typ = -1) && decide (u.off ≤ t.off)) (pre ++ [t]) := by
      apply List.countP_mono_left
      intro u hu hk
      rw [List.mem_append] at hu
      rcases hu with hu | hu
      · simp [hpre u hu]; simpa using hk
      · obtain rfl : u = t := by simpa using hu
        simpa using hk
    omega
  have k2 : (pre ++ t :: post).countP (fun u => decide (u.typ = 1) && decide (u.off < t.off)) ≤ edges 1 (pre ++ [t]) := by
    rw [List.countP_append, List.countP_cons]
    unfold edges
    rw [List.countP_append]
    have z : List.countP (fun u : Tuple => decide (u.typ = 1) && decide (u.off < t.off)) post = 0 := by
      rw [List.countP_eq_zero]; intro u hu; have := hpost u hu; simp; intro _; omega
    have m : List.countP (fun u : Tuple => decide (u.typ = 1) && decide (u.off < t.off)) pre ≤
        List.countP (fun u => decide (u.typ = 1)) pre :=
      List.countP_mono_left (fun u _ hk => by simp at hk ⊢; exact hk.1)
    simp [z]; omega
  constructor
  · omega
  · rw [List.countP_append, List.countP_cons]
    have z : List.countP (fun u : Tuple => decide (u.typ = 0) && decide (u.off < t.off)) post = 0 := by
      rw [List.countP_eq_zero]; intro u hu; have := hpost u hu; simp; intro _; omega
    have m : List.countP (fun u : Tuple => decide (u.typ = 0) && decide (u.off < t.off)) pre ≤ zeros pre :=
      List.countP_mono_left (fun u _ hk => by simp at hk ⊢; exact hk.1)
    simp [z]; omega

/-- What a successful scan from the back says. -/
theorem scan_down {is : List Interval} (h : ∀ i ∈ is, Sane i) {s pre post : List Tuple} {t : Tuple} (hs : SortedTo (tuples is) s)
    (e : s.reverse = pre ++ t :: post) {need : Int} (hn : total 1 (pre ++ [t]) ≥ need) :
    need ≤ containing is t.off ∧ is.countP (fun i => decide (t.off < i.off)) ≤ zeros pre := by
  have hty : Typed s := fun u hu => typed_tuples is u (hs.1.subset hu)
  obtain ⟨hpre, hpost⟩ := sorted_split' hs.2 e
  have hp : s.reverse.Perm (tuples is) := (List.reverse_perm s).trans hs.1
  have hsub : ∀ u ∈ pre ++ [t], u ∈ s := by
    intro u hu; rw [← List.mem_reverse, e]; simp at hu ⊢; tauto
  have h1 := (total_eq (l := pre ++ [t]) (fun u hu => hty u (hsub u hu))).2
  obtain ⟨_, _, c1⟩ := count_tuples h (fun x => decide (t.off ≤ x))
  obtain ⟨d3, d2, _⟩ := count_tuples h (fun x => decide (t.off < x))
  have hc := containing_ge' is t.off
  rw [← c1, ← d3, ← hp.countP_eq, ← hp.countP_eq, e] at hc
  rw [← hp.countP_eq, e] at d2
  rw [← d2]
  have k1 : edges 1 (pre ++ [t]) ≤
      (pre ++ t :: post).countP (fun u => decide (u.typ = 1) && decide (t.off ≤ u.off)) := by
    rw [show pre ++ t :: post = (pre ++ [t]) ++ post by simp, List.countP_append]
    unfold edges
    have : List.countP (fun u : Tuple => decide (u.typ = 1)) (pre ++ [t]) ≤
        List.countP (fun u => decide (u.typ = 1) && decide (t.off ≤ u.off)) (pre ++ [t]) := by
      apply List.countP_mono_left
      intro u hu hk
      rw [List.mem_append] at hu
      rcases hu with hu | hu
      · simp [hpre u hu]; simpa using hk
      · obtain rfl : u = t := by simpa using hu
        simpa using hk
    omega
  have k2 : (pre ++ t :: post).countP (fun u => decide (u.typ = -1) && decide (t.off < u.off)) ≤ edges (-1) (pre ++ [t]) := by
    rw [List.countP_append, List.countP_cons]
    unfold edges
    rw [List.countP_append]
    have z : List.countP (fun u : Tuple => decide (u.typ = -1) && decide (t.off < u.off)) post = 0 := by
      rw [List.countP_eq_zero]; intro u hu; have := hpost u hu; simp; intro _; omega
    have m : List.countP (fun u : Tuple => decide (u.typ = -1) && decide (t.off < u.off)) pre ≤
        List.countP (fun u => decide (u.typ = -1)) pre :=
      List.countP_mono_left (fun u _ hk => by simp at hk ⊢; exact hk.1)
    simp [z]; omega
  constructor
  · omega
  · rw [List.countP_append, List.countP_cons]
    have z : List.countP (fun u : Tuple => decide (u.typ = 0) && decide (t.off < u.off)) post = 0 := by
      rw [List.countP_eq_zero]; intro u hu; have := hpost u hu; simp; intro _; omega
    have m : List.countP (fun u : Tuple => decide (u.typ = 0) && decide (t.off < u.off)) pre ≤ zeros pre :=
      List.countP_mono_left (fun u _ hk => by simp at hk ⊢; exact hk.1)
    simp [z]; omega

end Verif.Inter
