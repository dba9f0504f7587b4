import Verif.SyncPanic.Model
/-!
# What the properties talk about
-/
namespace Verif.SyncPanic
open Verif.Conc Verif.SyncMap

set_option linter.unusedSectionVars false

variable {K V : Type} [DecidableEq K] [DecidableEq V] [Inhabited V]

/-- The call that a goroutine is in. -/
def callOf : Pc K V → Option (Call K V)
  | .idle => none
  | .want _ c => some c
  | .body _ c _ => some c
  | .held _ c _ => some c
  | .out _ c _ => some c

/-- The calls that change the map. -/
def Writes : Call K V → Prop
  | .set _ _ => True
  | .delete _ => True
  | .clear => True
  | _ => False

/-- Goroutine `t` has panicked in the call `c`. -/
def Crashed (bad : K → Prop) (s : PSt K V) (t : Nat) (c : Call K V) : Prop :=
  (∃ id acc, s.st.pc t = .body id c acc) ∧ Panics bad c

/-- Some schedule lets the call that goroutine `t` is in return. -/
def CanReturn (bad : K → Prop) (s : PSt K V) (t : Nat) : Prop := ∃ s', PSteps bad s s' ∧ s'.st.pc t = .idle

/-- Somebody else's panic is in the way of a call `c` that has not got the lock yet. -/
def Blocked (bad : K → Prop) (s : PSt K V) (t : Nat) (c : Call K V) : Prop :=
  -- a writer has panicked
  (∃ u c', Crashed bad s u c' ∧ Writes c') ∨
  -- a reader has panicked, and the call writes or a writer waits for that reader
  ((∃ u c', Crashed bad s u c') ∧ (Writes c ∨ s.pend ≠ none)) ∨
  -- the writer that is next is going to panic
  (∃ w c', w ≠ t ∧ s.pend = some w ∧ callOf (s.st.pc w) = some c' ∧ Panics bad c')

end Verif.SyncPanic
