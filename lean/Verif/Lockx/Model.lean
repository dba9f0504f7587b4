import Verif.Prelude
/-!
# Model of `syncx/lockx/lockx.go`

One locked variable at address `a ≠ 0`; its first word is `word`. Any number of goroutines call
`Lock(l, f)`, any number of times each. The callback gets the address of the variable and may write
its first word (a variable narrower than a pointer, where the compare-and-swap touches foreign
memory, is not modelled).
-/
namespace Verif.Lockx

inductive Pc where
  | idle
  | acquire      -- lockx.go:11-14, about to try the first compare-and-swap
  | inside       -- lockx.go:15, running `f`
  | release      -- lockx.go:16-18, about to try the second compare-and-swap
  | returned
  deriving DecidableEq

structure St where
  word : Nat
  pc : Nat → Pc

def St.at (s : St) (g : Nat) (p : Pc) : St := { s with pc := fun h => if h = g then p else s.pc h }

/-- One step of goroutine `g` in lockx.go:9-19 `Lock`. Both loops pass `l` itself (its address) as the
value to compare with, respectively to store. -/
inductive Step (a g : Nat) : St → St → Prop where
  | call (s) : (s.pc g = .idle ∨ s.pc g = .returned) → Step a g s (s.at g .acquire)
  | acquireOk (s) : s.pc g = .acquire → s.word = a → Step a g s ({ s with word := 0 }.at g .inside)
  | acquireSpin (s) : s.pc g = .acquire → s.word ≠ a → Step a g s s
  | fWrite (s) (v : Nat) : s.pc g = .inside → Step a g s { s with word := v }
  | fDone (s) : s.pc g = .inside → Step a g s (s.at g .release)
  | releaseOk (s) : s.pc g = .release → s.word = 0 → Step a g s ({ s with word := a }.at g .returned)
  | releaseSpin (s) : s.pc g = .release → s.word ≠ 0 → Step a g s s

/-- Executions from a variable whose first word is `w`. -/
inductive Reach (a w : Nat) : St → Prop where
  | init : Reach a w ⟨w, fun _ => .idle⟩
  | step {s s' : St} {g : Nat} : Reach a w s → Step a g s s' → Reach a w s'

/-- The same with callbacks that do not write the first word. -/
inductive ReachQ (a w : Nat) : St → Prop where
  | init : ReachQ a w ⟨w, fun _ => .idle⟩
  | step {s s' : St} {g : Nat} : ReachQ a w s → Step a g s s' → (s.pc g = .inside → s'.word = s.word) → ReachQ a w s'

/-- One execution continuing another. -/
inductive Steps (a : Nat) : St → St → Prop where
  | refl (s) : Steps a s s
  | step {s s' s'' : St} {g : Nat} : Steps a s s' → Step a g s' s'' → Steps a s s''

end Verif.Lockx
