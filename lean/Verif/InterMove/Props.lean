import Verif.InterMove.Lemmas
/-!
# C131: the agreement does not depend on the clock
-/
namespace Verif.InterMove
open Verif.Inter Verif.Go

/-- C131: the possible results for the intervals on another clock are the possible results for the
intervals, read on that clock. For every order the sort may leave equal offsets in. -/
theorem C131_clock {c d : Int} (hc : c ≠ 0) {is : List Interval} (hs : ∀ i ∈ is, Sane i) (hs' : ∀ i ∈ is, Sane (onClock c d i)) :
    (∀ r, Intersection is r → ∃ r', Intersection (is.map (onClock c d)) r' ∧ SameResult c d r r') ∧
      ∀ r', Intersection (is.map (onClock c d)) r' → ∃ r, Intersection is r ∧ SameResult c d r r' := by
  constructor
  · intro r h
    cases h with
    | one i => exact ⟨_, .one _, one_move hc (hs i (by simp)) (hs' i (by simp))⟩
    | many _ s hl h => exact ⟨_, .many _ _ (by simpa using hl) (arrange_sorted hc hs hs' h), intersection_move hc hs h⟩
  · intro r' h
    generalize hj : is.map (onClock c d) = js at h
    cases h with
    | one i =>
      obtain ⟨j, rfl⟩ : ∃ j, is = [j] := List.length_eq_one_iff.1 (by rw [← List.length_map (f := onClock c d), hj]; rfl)
      simp only [List.map_cons, List.map_nil, List.cons.injEq, and_true] at hj
      subst hj
      exact ⟨_, .one _, one_move hc (hs j (by simp)) (hs' j (by simp))⟩
    | many _ s' hl h =>
      subst hj
      obtain ⟨s, h1, rfl⟩ := arrange_onto hc hs hs' h
      exact ⟨_, .many _ _ (by simpa using hl) h1, intersection_move hc hs h1⟩

/-- C131, when no two edges or midpoints of different kinds coincide: the result itself is that on the other clock. -/
theorem C131_noties {c d : Int} (hc : c ≠ 0) {is : List Interval} (hs : ∀ i ∈ is, Sane i) (hs' : ∀ i ∈ is, Sane (onClock c d i))
    (ht : NoTies is) {r r' : Int × Int × Bool} (h : Intersection is r) (h' : Intersection (is.map (onClock c d)) r') :
    SameResult c d r r' := by
  obtain ⟨r₀, h1, h2⟩ := (C131_clock hc hs hs').2 r' h'
  rwa [C46_order_partial ht (.refl _) h h1]

/-- Three intervals that agree, on a clock that is 1000 ahead, twice as fast and runs backwards. -/
example : (∀ i ∈ ([⟨0, 10⟩, ⟨1, 8⟩, ⟨2, 5⟩] : List Interval), Sane i ∧ Sane (onClock (-2) 1000 i)) ∧ run [⟨0, 10⟩, ⟨1, 8⟩, ⟨2, 5⟩] = (-3, 7, true) ∧
    run ([⟨0, 10⟩, ⟨1, 8⟩, ⟨2, 5⟩].map (onClock (-2) 1000)) = (986, 1006, true) := by
  unfold Sane InInt64; decide

/-- The bounds have to be `int64`s: two clocks that agree do not after the zero is moved too far. -/
theorem C131_overflow : run [⟨0, 10⟩, ⟨1, 10⟩] = (-9, 10, true) ∧
    (run ([⟨0, 10⟩, ⟨1, 10⟩].map (onClock 1 (2 ^ 63 - 5)))).2.2 = false := by decide

end Verif.InterMove
