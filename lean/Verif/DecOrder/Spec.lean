import Verif.Decouple.Model
/-!
# One producer: what order means

The transition system is that of `Verif.Decouple.Model`, decouple.go:48-101. The calls of `Write` are
numbered in the order in which the one producer makes them.
-/
namespace Verif.DecOrder
open Verif.Decouple
variable {α : Type}

/-- The states reached by steps that satisfy `ok`. -/
inductive Only (ok : St α → St α → Prop) (size : Nat) (payload : Nat → List α) : St α → Prop where
  | init : Only ok size payload init
  | step {s s' : St α} : Only ok size payload s → Step size payload s s' → ok s s' → Only ok size payload s'

/-- One producer: call `j` starts when the calls before it have returned. -/
def Turn (s s' : St α) : Prop :=
  ∀ j, s.wpc j = .new → s'.wpc j ≠ .new → ∀ i, i < j → s.wpc i = .accepted ∨ s.wpc i = .dropped

/-- No call finds its slot taken (line 68 is not reached). -/
def Room (s s' : St α) : Prop := ∀ j, s'.wpc j = .chk → s.wpc j = .chk

/-- The payloads of the first `m` calls, without the empty ones (these go to the drop function, line 50). -/
def pay (payload : Nat → List α) (m : Nat) : List (List α) := ((List.range m).map payload).filter fun b => !b.isEmpty

/-- No call is under way. -/
def Settled (s : St α) : Prop := ∀ j, s.wpc j = .new ∨ s.wpc j = .accepted ∨ s.wpc j = .dropped

/-- In order: what was shown are the payloads of the first calls; `Next` does not wait when no call is under
way; and when there is nothing left, everything has been shown. -/
structure InOrder (payload : Nat → List α) (s : St α) : Prop where
  prefix_ : ∃ m, s.log = pay payload m
  returns : Settled s → ∀ i, s.rpc = .spin i → s.lock i ≠ emptyL ∧ s.lock i ≠ busyL
  all : Settled s → s.rpc = .idle → s.len = 0 → ∀ n, (∀ j, s.wpc j = .new ↔ n ≤ j) → s.log = pay payload n

end Verif.DecOrder
