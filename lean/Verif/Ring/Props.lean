import Verif.Ring.Model
/-!
# Property C17: the ring queue
-/
namespace Verif.Ring
open Verif.Go
variable {T : Type} [Inhabited T]

/-- **C17 is false**: `New(1)`, `Enqueue(5)`, `Dequeue()`, `Enqueue(6)` panics on an empty ring; in
general the ring panics on the first `Enqueue` after `n` elements were accepted and one was taken. -/
theorem C17_refuted :
    (∃ r : Ring Nat, new 1 = .ret (some r) ∧
      run r [.enqueue 5, .dequeue, .isEmpty, .enqueue 6] = [.bool true, .val 5, .bool true, .panic] ∧
      specRun 1 [] [.enqueue 5, .dequeue, .isEmpty, .enqueue 6] =
        [.bool true, .val 5, .bool true, .bool true]) ∧
    (∀ (n : Int), 0 < n → n < 2 ^ 63 - 1 → ∀ (l : List T) (v : T), (l.length : Int) = n → ∃ r : Ring T,
      new n = .ret (some r) ∧
        (run r (l.map .enqueue ++ [.dequeue, .enqueue v])).getLast? = some .panic) := by
  constructor
  · exact ⟨⟨[0], 2, 0, 0⟩, by decide, by decide, by decide⟩
  · intro n h0 h1 l v hl
    obtain ⟨r, hr, p⟩ := new_rep (T := T) h0 h1
    refine ⟨r, hr, ?_⟩
    rw [run_rep p (by omega)]
    have key : ∀ (l : List T) (pre : List T), pre.length + l.length = n.toNat →
        (realRun n.toNat pre.length pre (l.map .enqueue ++ [.dequeue, .enqueue v])).getLast? = some .panic := by
      intro l
      induction l with
      | nil =>
        intro pre hpre
        simp only [List.length_nil, Nat.add_zero] at hpre
        cases pre with
        | nil => simp only [List.length_nil] at hpre; omega
        | cons x pre =>
          simp only [List.length_cons] at hpre
          have e1 : ¬ (pre.length + 1 < n.toNat) := by omega
          have e2 : ¬ (pre.length = n.toNat) := by omega
          simp [realRun, realStep, specStep, e1, e2]
      | cons x l ih =>
        intro pre hpre
        simp only [List.length_cons] at hpre
        simp only [List.map_cons, List.cons_append, realRun, realStep]
        rw [if_pos (by omega)]
        have := ih (pre ++ [x]) (by simp; omega)
        simp only [List.length_append, List.length_singleton] at this
        rw [List.getLast?_cons, this]
        rfl
    exact key l [] (by simp; omega)

/-- **C17, exact behaviour**: for every capacity and every history the ring behaves as `realRun`
says: as a bounded FIFO queue as long as fewer than `n` elements were ever accepted; afterwards
`Enqueue` is refused while all `n` elements are held and panics (without effect) otherwise. `New(0)`
is nil and a negative size panics. -/
theorem C17_exact (n : Int) (h0 : 0 < n) (h1 : n < 2 ^ 63 - 1) :
    ∃ r : Ring T, new n = .ret (some r) ∧ ∀ ops, run r ops = realRun n.toNat 0 [] ops := by
  obtain ⟨r, hr, p⟩ := new_rep (T := T) h0 h1
  exact ⟨r, hr, fun ops => run_rep p (by omega) ops⟩

/-- **C17, what does hold**: every history with at most `n` calls of `Enqueue` behaves as on a
bounded FIFO queue and does not panic (`Head`, which does not check, being called on non-empty
queues only). Missing from the full claim: histories with more `Enqueue`s. -/
theorem C17_partial (n : Int) (h0 : 0 < n) (h1 : n < 2 ^ 63 - 1) :
    ∃ r : Ring T, new n = .ret (some r) ∧ ∀ ops, (enqueues ops : Int) ≤ n → HeadSafe n.toNat [] ops →
      run r ops = specRun n.toNat [] ops := by
  obtain ⟨r, hr, e⟩ := C17_exact (T := T) n h0 h1
  exact ⟨r, hr, fun ops ho hs => by
    rw [e, real_eq_spec (Nat.le_refl 0) ops (by omega) hs]⟩

example : enqueues ([.enqueue 1, .dequeue, .enqueue 2, .enqueue 3, .peek, .head, .isFull] : List (Op Nat)) ≤ 3 ∧
    HeadSafe 3 [] ([.enqueue 1, .dequeue, .enqueue 2, .enqueue 3, .peek, .head, .isFull] : List (Op Nat)) := by
  simp [enqueues, HeadSafe, specStep]

end Verif.Ring
