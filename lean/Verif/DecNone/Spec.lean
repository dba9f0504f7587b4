import Verif.DecOrder.Spec
/-!
# What it means that `Next` finds nothing

The transition system is that of `Verif.Decouple.Model`, decouple.go:48-101: any number of calls of `Write`, one reader.
-/
namespace Verif.DecNone
open Verif.Decouple
variable {α : Type}

/-- A call of `Next` made now returns false (lines 77-79). -/
def Finds (s : St α) : Prop := s.rpc = .idle ∧ s.len = 0

/-- `js` are the calls of `Write` whose payloads were shown, in the order in which they were. -/
def Shown (payload : Nat → List α) (s : St α) (js : List Nat) : Prop :=
  js.Nodup ∧ s.log = js.map payload ∧ ∀ j ∈ js, s.wpc j = .incr ∨ s.wpc j = .accepted

/-- The payload of every call of `Write` that returned without dropping it has been shown. -/
def AllShown (payload : Nat → List α) (s : St α) : Prop :=
  ∃ js, Shown payload s js ∧ ∀ j, s.wpc j = .accepted → j ∈ js

/-- There are as many things with `q` as with `p`, or more. -/
def AtLeast (p q : Nat → Prop) : Prop :=
  ∀ l : List Nat, l.Nodup → (∀ j ∈ l, p j) → ∃ m : List Nat, m.Nodup ∧ m.length = l.length ∧ ∀ k ∈ m, q k

end Verif.DecNone
