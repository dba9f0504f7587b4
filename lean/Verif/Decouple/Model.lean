import Verif.Prelude
import Verif.Go.Basic
/-!
# Model of `iox/decouplex/decouple.go`

A transition system of any number of `Write` calls and one goroutine that calls `Next` again and again.
Each atomic operation is a step; copying the payload into a slot and showing a slot to `view` are steps
too (no other goroutine touches the slot meanwhile: `excl` in `Conc.lean`). The 64-bit
counters wrap. A nil `view` is one that ignores its argument. The drop function returns.
-/
namespace Verif.Decouple

/-- 2^64. -/
abbrev W : Nat := 2 ^ 64

/-- decouple.go:43-46. -/
def emptyL : Nat := W - 2
def busyL : Nat := W - 1

/-- decouple.go:55 and 81. -/
def slot (size ts : Nat) : Nat := ts % size

/-- A `Write` call, decouple.go:48-74. -/
inductive WPc where
  | new
  | add               -- line 54
  | load (ts : Nat)   -- line 57
  | cas (ts : Nat)    -- line 59
  | copy (ts : Nat)   -- line 62
  | store (ts : Nat)  -- line 63
  | incr              -- line 64
  | accepted          -- returned `len(b), nil`
  | chk               -- line 69
  | dropped           -- called `drop(b)`, lines 50 and 70
  deriving DecidableEq

/-- The reader, decouple.go:76-101. -/
inductive RPc where
  | idle                -- before line 77
  | spin (idx : Nat)    -- line 85
  | view (idx : Nat)    -- line 94
  | clear (idx : Nat)   -- line 96
  | decr                -- line 97
  deriving DecidableEq

/-- `size`: fixed. `lock`, `buf`: the slots. `log`: the payloads shown so far. -/
structure St (α : Type) where
  rd : Nat
  wr : Nat
  len : Nat
  lock : Nat → Nat
  buf : Nat → List α
  wpc : Nat → WPc
  rpc : RPc
  log : List (List α)
  attempts : Nat        -- ghost: how often line 54 was executed
  crashed : Bool        -- division by zero

variable {α : Type}

/-- decouple.go:22-41. -/
def init : St α where
  rd := 0
  wr := W - 1
  len := 0
  lock := fun _ => emptyL
  buf := fun _ => []
  wpc := fun _ => .new
  rpc := .idle
  log := []
  attempts := 0
  crashed := false

def St.at (s : St α) (j : Nat) (p : WPc) : St α := { s with wpc := fun i => if i = j then p else s.wpc i }

/-- `payload j`: what `Write` call `j` is given. -/
inductive Step (size : Nat) (payload : Nat → List α) : St α → St α → Prop where
  | callEmpty (s) (j : Nat) : s.wpc j = .new → (payload j).length = 0 → Step size payload s (s.at j .dropped)
  | call (s) (j : Nat) : s.wpc j = .new → (payload j).length ≠ 0 → Step size payload s (s.at j .add)
  | add (s) (j : Nat) : s.wpc j = .add → size ≠ 0 →
      Step size payload s ({ s with wr := (s.wr + 1) % W, attempts := s.attempts + 1 }.at j (.load ((s.wr + 1) % W)))
  | addCrash (s) (j : Nat) : s.wpc j = .add → size = 0 →
      Step size payload s { s with crashed := true }
  | loadEmpty (s) (j ts : Nat) : s.wpc j = .load ts → s.lock (slot size ts) = emptyL → Step size payload s (s.at j (.cas ts))
  | loadBusy (s) (j ts : Nat) : s.wpc j = .load ts → s.lock (slot size ts) = busyL → Step size payload s (s.at j .add)
  | loadFull (s) (j ts : Nat) : s.wpc j = .load ts → s.lock (slot size ts) ≠ emptyL → s.lock (slot size ts) ≠ busyL →
      Step size payload s (s.at j .chk)
  | casOk (s) (j ts : Nat) : s.wpc j = .cas ts → s.lock (slot size ts) = emptyL →
      Step size payload s ({ s with lock := fun i => if i = slot size ts then busyL else s.lock i }.at j (.copy ts))
  | casFail (s) (j ts : Nat) : s.wpc j = .cas ts → s.lock (slot size ts) ≠ emptyL → Step size payload s (s.at j .add)
  | copy (s) (j ts : Nat) : s.wpc j = .copy ts →
      Step size payload s ({ s with buf := fun i => if i = slot size ts then payload j else s.buf i }.at j (.store ts))
  | store (s) (j ts : Nat) : s.wpc j = .store ts →
      Step size payload s ({ s with lock := fun i => if i = slot size ts then ts else s.lock i }.at j .incr)
  | incr (s) (j : Nat) : s.wpc j = .incr → Step size payload s ({ s with len := (s.len + 1) % W }.at j .accepted)
  | chkFull (s) (j : Nat) : s.wpc j = .chk → s.len = size → Step size payload s (s.at j .dropped)
  | chkRetry (s) (j : Nat) : s.wpc j = .chk → s.len ≠ size → Step size payload s (s.at j .add)
  | nextNone (s) : s.rpc = .idle → s.len = 0 → Step size payload s s
  | nextCrash (s) : s.rpc = .idle → s.len ≠ 0 → size = 0 → Step size payload s { s with crashed := true }
  | next (s) : s.rpc = .idle → s.len ≠ 0 → size ≠ 0 → Step size payload s { s with rpc := .spin (slot size s.rd) }
  | spinWait (s) (i : Nat) : s.rpc = .spin i → (s.lock i = emptyL ∨ s.lock i = busyL) → Step size payload s s
  | spinEnd (s) (i : Nat) : s.rpc = .spin i → s.lock i ≠ emptyL → s.lock i ≠ busyL → Step size payload s { s with rpc := .view i }
  | view (s) (i : Nat) : s.rpc = .view i → Step size payload s { s with log := s.log ++ [s.buf i], rpc := .clear i }
  | clear (s) (i : Nat) : s.rpc = .clear i →
      Step size payload s { s with lock := fun x => if x = i then emptyL else s.lock x, rpc := .decr }
  | decr (s) : s.rpc = .decr →
      Step size payload s { s with len := (s.len + (W - 1)) % W, rd := (s.rd + 1) % W, rpc := .idle }

inductive Reach (size : Nat) (payload : Nat → List α) : St α → Prop where
  | init : Reach size payload init
  | step {s s' : St α} : Reach size payload s → Step size payload s s' → Reach size payload s'

/-! ## Sequential use: one call at a time, run to its end -/

/-- The fields of a decoupler. -/
structure Dec (α : Type) where
  rd : Nat
  wr : Nat
  len : Nat
  lock : Nat → Nat
  buf : Nat → List α

/-- decouple.go:22-41. -/
def Dec.init : Dec α := ⟨0, W - 1, 0, fun _ => emptyL, fun _ => []⟩

/-- What a `Write` does: accept the payload, call the drop function with it, or panic. -/
inductive WRes where
  | accepted (n : Nat)
  | dropped
  | panic
  deriving DecidableEq

/-- The result of `Write(b)`, decouple.go:50, 65 and 70: `ok n` is `(n, nil)`, `drop` the drop function. -/
def WRes.value {ρ : Type} (drop : List α → ρ) (ok : Nat → ρ) (b : List α) : WRes → Option ρ
  | .accepted n => some (ok n)
  | .dropped => some (drop b)
  | .panic => none

/-- decouple.go:53-73, the loop. There is a derivation when it ends. -/
inductive WLoop (size : Nat) (b : List α) : Dec α → Dec α → WRes → Prop where
  | div (d) : size = 0 → WLoop size b d { d with wr := (d.wr + 1) % W } .panic
  | accept (d) : size ≠ 0 → d.lock (slot size ((d.wr + 1) % W)) = emptyL →
      WLoop size b d { d with
        wr := (d.wr + 1) % W
        len := (d.len + 1) % W
        lock := fun i => if i = slot size ((d.wr + 1) % W) then (d.wr + 1) % W else d.lock i
        buf := fun i => if i = slot size ((d.wr + 1) % W) then b else d.buf i } (.accepted b.length)
  | drop (d) : size ≠ 0 → d.lock (slot size ((d.wr + 1) % W)) ≠ emptyL → d.lock (slot size ((d.wr + 1) % W)) ≠ busyL → d.len = size →
      WLoop size b d { d with wr := (d.wr + 1) % W } .dropped
  | again (d d' r) : size ≠ 0 → d.lock (slot size ((d.wr + 1) % W)) ≠ emptyL →
      (d.lock (slot size ((d.wr + 1) % W)) = busyL ∨ d.len ≠ size) →
      WLoop size b { d with wr := (d.wr + 1) % W } d' r → WLoop size b d d' r

/-- decouple.go:48-74. -/
inductive Write (size : Nat) (b : List α) : Dec α → Dec α → WRes → Prop where
  | empty (d) : b.length = 0 → Write size b d d .dropped
  | loop (d d' r) : b.length ≠ 0 → WLoop size b d d' r → Write size b d d' r

/-- What a `Next` does: show a payload and return true, or return false, or wait for ever, or panic. -/
inductive NRes (α : Type) where
  | shown (b : List α)
  | none
  | hang
  | panic

/-- decouple.go:76-101. Nobody else runs, so a wait in lines 84-91 is for ever. -/
def next (size : Nat) (d : Dec α) : NRes α × Dec α :=
  if d.len = 0 then (.none, d)
  else if size = 0 then (.panic, d)
  else if d.lock (slot size d.rd) = emptyL ∨ d.lock (slot size d.rd) = busyL then (.hang, d)
  else (.shown (d.buf (slot size d.rd)),
    { d with lock := fun i => if i = slot size d.rd then emptyL else d.lock i, len := (d.len + (W - 1)) % W, rd := (d.rd + 1) % W })

/-- A call and its outcome. -/
inductive Ev (α : Type) where
  | write (b : List α) (r : WRes)
  | next (r : NRes α)

/-- A sequential history, in order; every call in it ended. -/
inductive Run (size : Nat) : List (Ev α) → Dec α → Prop where
  | init : Run size [] Dec.init
  | write {h d d' b r} : Run size h d → Write size b d d' r → r ≠ .panic → Run size (h ++ [.write b r]) d'
  | shown {h d d' b} : Run size h d → next size d = (.shown b, d') → Run size (h ++ [.next (.shown b)]) d'
  | none {h d d'} : Run size h d → next size d = (.none, d') → Run size (h ++ [.next .none]) d'

end Verif.Decouple
