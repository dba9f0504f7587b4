import Verif.Decouple.Model
/-!
# Fair executions of a decoupler

The transition system is that of `Verif.Decouple.Model`, decouple.go:48-101. An execution is infinite; nothing
need happen in a step of it, so executions that come to an end are included.
-/
namespace Verif.DecFair
open Verif.Decouple

variable {α : Type}

/-- An execution of a new decoupler. -/
structure Exec (size : Nat) (payload : Nat → List α) (σ : Nat → St α) : Prop where
  start : σ 0 = init
  next : ∀ n, Step size payload (σ n) (σ (n + 1)) ∨ σ (n + 1) = σ n

/-- The `Write` call has begun and has not returned. -/
def Inside (p : WPc) : Prop := p ≠ .new ∧ p ≠ .accepted ∧ p ≠ .dropped

/-- The `Write` call has returned. -/
def Over (p : WPc) : Prop := p = .accepted ∨ p = .dropped

/-- A `Write` call that could always go on goes on. -/
def FairWriters (size : Nat) (payload : Nat → List α) (σ : Nat → St α) : Prop := ∀ j n,
  (∀ m, n ≤ m → Inside ((σ m).wpc j) ∧ ∃ s', Step size payload (σ m) s' ∧ s'.wpc j ≠ (σ m).wpc j) →
    ∃ m, n ≤ m ∧ (σ (m + 1)).wpc j ≠ (σ m).wpc j

/-- A `Next` call that could always go on goes on. (Nobody need call `Next`.) -/
def FairReader (size : Nat) (payload : Nat → List α) (σ : Nat → St α) : Prop := ∀ n,
  (∀ m, n ≤ m → (σ m).rpc ≠ .idle ∧ ∃ s', Step size payload (σ m) s' ∧ s'.rpc ≠ (σ m).rpc) →
    ∃ m, n ≤ m ∧ (σ (m + 1)).rpc ≠ (σ m).rpc

/-- `Write` is called finitely often. -/
def FewWrites (σ : Nat → St α) : Prop := ∃ K, ∀ n j, K ≤ j → (σ n).wpc j = .new

/-- Finitely many `Write` calls are accepted. -/
def FewAccepted (σ : Nat → St α) : Prop := ∃ K, ∀ n j, K ≤ j → (σ n).wpc j ≠ .accepted

/-- No payload is stored with a ticket that is one of the marks 2^64 - 2 (empty) and 2^64 - 1 (locked), lines 43-46. -/
def NoMarks (σ : Nat → St α) : Prop := ∀ n j ts, (σ n).wpc j = .store ts → ts ≠ emptyL ∧ ts ≠ busyL

/-- Every `Write` that begins returns. -/
def AllReturn (σ : Nat → St α) : Prop := ∀ n j, Inside ((σ n).wpc j) → ∃ m, n ≤ m ∧ Over ((σ m).wpc j)

end Verif.DecFair
