import Mathlib.Logic.Relation
/-!
# `osx/closex` with `iox/managerx/closex`: a program that closes its manager on a kill signal

`intr := closex.HandleKillSig(func() { manager.Close() }, logger)`, with goroutines that call `manager.Append` at any time.
One step is one critical section of the manager's mutex, one call of a closer, or one operation on a channel. `Append`
(manager.go:19-23) holds the mutex for one append only and is one step (`C91` has it in parts); `Close` (manager.go:25-40) holds it
while it calls the closers. Closers return, and the logger is not nil (`C54`). A closer is named by the call of `Append` that
registered it.
-/
namespace Verif.KillClose

/-- A call of `Append`. -/
inductive Add where
  | idle
  | called
  | returned
  deriving DecidableEq

/-- Where the goroutine of closex.go:21-27 is. -/
inductive Pc where
  /-- closex.go:22, at the head of the loop -/
  | waiting
  /-- closex.go:23 -/
  | logging
  /-- closex.go:24, manager.go:26 -/
  | enter
  /-- manager.go:32, the closers still to be called -/
  | closing (rest : List Nat)
  /-- closex.go:25 -/
  | done
  deriving DecidableEq

structure St where
  /-- manager.go:16 -/
  list : List Nat
  /-- The mutex is held by `Close`. -/
  held : Bool
  add : Nat → Add
  /-- The channel of closex.go:18 has a signal; its capacity is one. -/
  pending : Bool
  /-- How many signals the process has got. -/
  sent : Nat
  /-- How many signals the goroutine has received. -/
  taken : Nat
  pc : Pc
  /-- `intr.C` is closed. -/
  cClosed : Bool
  /-- How often each closer has been called. -/
  closes : Nat → Nat
  /-- The program has been ended by a panic. -/
  crashed : Bool

/-- After `HandleKillSig` with a new manager. -/
def init : St :=
  { list := [], held := false, add := fun _ => .idle, pending := false, sent := 0, taken := 0, pc := .waiting, cClosed := false,
    closes := fun _ => 0, crashed := false }

/-- Who moves: the goroutine of `HandleKillSig`, or anyone else. -/
inductive Who where
  | handler
  | other

inductive Move : Who → St → St → Prop where
  /-- Somebody calls `Append`. -/
  | call (s) (j : Nat) : s.add j = .idle → Move .other s { s with add := fun i => if i = j then .called else s.add i }
  /-- manager.go:19-23. -/
  | append (s) (j : Nat) : s.add j = .called → s.held = false →
      Move .other s { s with add := fun i => if i = j then .returned else s.add i, list := s.list ++ [j] }
  /-- os/signal: a signal that finds the channel full is lost. -/
  | signal (s) : Move .other s { s with pending := true, sent := s.sent + 1 }
  /-- closex.go:22. -/
  | take (s) : s.pc = .waiting → s.pending = true → Move .handler s { s with pending := false, taken := s.taken + 1, pc := .logging }
  /-- closex.go:23. -/
  | log (s) : s.pc = .logging → Move .handler s { s with pc := .enter }
  /-- manager.go:26-32. -/
  | enter (s) : s.pc = .enter → s.held = false → Move .handler s { s with held := true, pc := .closing s.list }
  /-- manager.go:33. -/
  | closeOne (s) (j : Nat) (rest : List Nat) : s.pc = .closing (j :: rest) →
      Move .handler s { s with closes := fun i => if i = j then s.closes i + 1 else s.closes i, pc := .closing rest }
  /-- manager.go:27, 39. -/
  | leave (s) : s.pc = .closing [] → Move .handler s { s with held := false, pc := .done }
  /-- closex.go:25. -/
  | closeC (s) : s.pc = .done → s.cClosed = false → Move .handler s { s with cClosed := true, pc := .waiting }
  /-- closex.go:25: close of a closed channel. -/
  | crash (s) : s.pc = .done → s.cClosed = true → Move .handler s { s with crashed := true }

/-- A program that has crashed does nothing. -/
def Step (w : Who) (s s' : St) : Prop := s.crashed = false ∧ Move w s s'

abbrev Later : St → St → Prop := Relation.ReflTransGen fun s s' => ∃ w, Step w s s'

def Reach (s : St) : Prop := Later init s

/-! ## Executions -/

/-- An execution; nothing need happen in a step of it. -/
structure Exec (σ : Nat → St) : Prop where
  start : σ 0 = init
  next : ∀ n, (∃ w, Step w (σ n) (σ (n + 1))) ∨ σ (n + 1) = σ n

/-- If the goroutine of `HandleKillSig` could always go on, it goes on. -/
def Fair (σ : Nat → St) : Prop := ∀ n, (∀ m, n ≤ m → ∃ s', Step .handler (σ m) s') → ∃ m, n ≤ m ∧ Step .handler (σ m) (σ (m + 1))

end Verif.KillClose
