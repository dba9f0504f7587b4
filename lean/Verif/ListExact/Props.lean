import Verif.ListExact.Lemmas
/-!
# C16: what the linked list does in all histories
-/
set_option linter.unusedSectionVars false
namespace Verif.ListExact
open Verif.Linked Verif.Linked.LList

variable {T : Type} [Inhabited T]

/-- **C16, exactly.** For every history and every behaviour of the pool the results of all calls are those of a sequence
together with the place of the node that was appended last, the counter and the size of the pool. `Append` puts the new
element behind that node: what followed it is lost, and nothing happens if it is no longer in the list. -/
theorem C16_exact (ops : List (Op T)) : run (new : LL T) ops = exactRun empty ops := run_rep new_rep ops

/-- No call hangs, and only `Insert` can panic. -/
theorem exactStep_res (x : X T) (op : Op T) : (exactStep x op).2 ≠ .hang ∧
    ((exactStep x op).2 = .panic → ∃ i v c, op = .insert i v c ∧ i ≠ 0 ∧ i = x.len + 1 ∧ x.last = .none) := by
  cases op with
  | append v c => simp only [exactStep]; split <;> simp
  | insert i v c =>
    simp only [exactStep]
    split
    · rename_i h
      split
      · rename_i h'
        exact ⟨by simp, fun _ => ⟨i, v, c, rfl, h.1, h.2, h'⟩⟩
      · simp
    · split <;> simp
  | remove i =>
    simp only [exactStep, elem]
    repeat' split
    all_goals simp
  | «at» i =>
    simp only [exactStep, elem]
    repeat' split
    all_goals simp
  | iterate f => simp [exactStep]
  | len => simp [exactStep]

theorem exactRun_hang (x : X T) (ops : List (Op T)) : Res.hang ∉ exactRun x ops := by
  induction ops generalizing x with
  | nil => simp [exactRun]
  | cons op ops ih =>
    simp only [exactRun, List.mem_cons, not_or]
    exact ⟨fun h => (exactStep_res x op).1 h.symm, ih _⟩

/-- Whatever the history, no call on the list runs for ever: stale tails never make a cycle that is reachable. -/
theorem C16_no_hang (ops : List (Op T)) : Res.hang ∉ run (new : LL T) ops := by
  rw [C16_exact]
  exact exactRun_hang _ _

theorem at_no_panic (x : X T) (op : Op T) (h : x.last ≠ .none) : (exactStep x op).1.last ≠ .none := by
  cases op with
  | append v c =>
    have ht := mt (take_none x c).1 h
    simp only [exactStep, behind]
    repeat' split
    all_goals simp_all
  | insert i v c =>
    have ht := mt (take_none x c).1 h
    simp only [exactStep, behind, Last.inserted]
    repeat' split
    all_goals simp_all
  | remove i =>
    simp only [exactStep, Last.removed]
    repeat' split
    all_goals simp_all
  | «at» i => exact h
  | iterate f => exact h
  | len => exact h

theorem exactRun_panic (x : X T) (h : x.last ≠ .none) (ops : List (Op T)) : Res.panic ∉ exactRun x ops := by
  induction ops generalizing x with
  | nil => simp [exactRun]
  | cons op ops ih =>
    simp only [exactRun, List.mem_cons, not_or]
    refine ⟨fun hp => ?_, ih _ (at_no_panic x op h)⟩
    obtain ⟨_, _, _, _, _, _, h'⟩ := (exactStep_res x op).2 hp.symm
    exact h h'

/-- From the first `Append` on no call panics. -/
theorem C16_no_panic (pre post : List (Op T)) (v : T) (c : Option Nat) :
    Res.panic ∉ (run (new : LL T) (pre ++ .append v c :: post)).drop pre.length := by
  rw [C16_exact]
  generalize (empty : X T) = x
  induction pre generalizing x with
  | nil =>
    simp only [List.nil_append, List.length_nil, List.drop_zero, exactRun, List.mem_cons, not_or]
    constructor
    · intro h
      obtain ⟨_, _, _, h, _⟩ := (exactStep_res x (.append v c)).2 h.symm
      cases h
    · refine exactRun_panic _ ?_ post
      simp only [exactStep, behind]
      repeat' split
      all_goals simp_all
  | cons op pre ih => exact ih _

/-- The first element of a list that only saw `Insert(0)` is lost by `Append`, with all others: -/
example : run (new : LL Nat) [.insert 0 3 none, .insert 0 2 none, .insert 0 1 none, .append 4 none, .len,
    .iterate (fun _ => true)] = [.unit, .unit, .unit, .unit, .num 4, .vals [4]] := by
  rw [C16_exact]; decide

/-- A removed tail that comes back from the pool in the middle of the list: `Append` then cuts the list there. -/
example : run (new : LL Nat) [.append 1 none, .append 2 none, .append 3 none, .remove 2, .insert 1 9 (some 0),
    .append 4 none, .iterate (fun _ => true)] = [.unit, .unit, .unit, .val 3, .unit, .unit, .vals [1, 9, 4]] := by
  rw [C16_exact]; decide

end Verif.ListExact
