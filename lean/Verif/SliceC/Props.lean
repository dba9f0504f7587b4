import Verif.SliceC.Lemmas
/-!
# Properties C18 and C19: the slice stack and the slice list
-/
namespace Verif.SliceC
open Verif.Go
variable {T : Type} [Inhabited T]

/-- **C18.** Every history of stack calls shows what an abstract stack shows, whatever capacities
`append` chooses and whatever else is in memory. -/
theorem C18_slice_stack (h : Hp T) (ops : List (SOp T)) : stackRun (newStack h) ops = stackSpecRun [] ops :=
  stackRun_rep (newStack_rep h) ops

example : stackSpecRun [] [.push 1 0, .push 2 5, .peek, .pop, .pop, .pop, .len] =
    [.bool true, .bool true, .val 2, .val 2, .val 1, .none, .num 0] := by decide

/-- **C19.** Every history of list calls on a list that starts empty shows what an abstract sequence
shows, for every `int` index and whatever capacities `append` chooses (histories shorter than `2^63`
calls). After a panicking `Insert` the value has been appended. -/
theorem C19_slice_list (h : Hp T) (ops : List (LOp T)) (ho : ∀ op ∈ ops, OpOk op)
    (hs : (ops.length : Int) < 2 ^ 63) : ListSpecRun [] ops (listRun (newList h) ops) :=
  listRun_rep (newList_rep h) ops ho (by simpa using hs)

/-- The specification determines what `Iterate` hands out. -/
theorem C19_visits_unique (f : List T → Bool) (l vs ws : List T) (h1 : Visits f l vs) (h2 : Visits f l ws) :
    vs = ws := by
  have key : ∀ vs ws : List T, Visits f l vs → Visits f l ws → vs.length ≤ ws.length → vs = ws := by
    intro vs ws h1 h2 hl
    have hp := List.prefix_of_prefix_length_le h1.1 h2.1 hl
    rcases h1.2.2 with e | ⟨hne, hf⟩
    · subst e
      exact hp.eq_of_length_le h2.1.length_le
    · by_contra hn
      have := h2.2.1 vs hne hp hn
      rw [hf] at this
      exact Bool.noConfusion this
  rcases Nat.le_total vs.length ws.length with h | h
  · exact key vs ws h1 h2 h
  · exact (key ws vs h2 h1 h).symm

example : ∀ op ∈ ([.append 1 0, .insert 0 2 0, .insert (2 ^ 63 - 1) 7 1, .remove (-1), .remove 1] : List (LOp Nat)), OpOk op := by
  simp [OpOk, InInt64]

example : listRun (newList ⟨fun _ _ => 0, 0⟩) [.append 1 0, .insert 0 2 0, .insert 7 7 1, .len, .remove 1, .at 1] =
    [.unit, .unit, .panic, .num 3, .val 1, .val 7] := by decide

end Verif.SliceC
