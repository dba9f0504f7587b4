import Verif.Decouple.Model
/-!
# `iox/decouplex/decouple.go` byte by byte

The model of `Verif/Decouple/Model.lean` with the memory behind the slots. `append(d.buffer[idx][:0], b...)` (decouple.go:62)
writes into the array the slot already has, if it is long enough, and otherwise into a new one; each byte is a step, and
so is the assignment to `d.buffer[idx]`. The slice the view is given is that array; the view reads it byte by byte. It may
write the bytes it has read and those beyond the length. The callers own their slices except while `Write` runs: then
they may change them in any way.
-/
namespace Verif.DecMem
open Verif.Decouple (W emptyL busyL slot)

/-- A `[]byte` in a slot. -/
structure Hdr where
  base : Nat
  len : Nat
  cap : Nat
  deriving DecidableEq

/-- A `Write` call, decouple.go:48-74. -/
inductive WPc where
  | new
  | add                            -- line 54
  | load (ts : Nat)                -- line 57
  | cas (ts : Nat)                 -- line 59
  | grow (ts : Nat)                -- line 62, before `append` looks at the slot
  | fill (ts base cap k : Nat)     -- line 62, `k` bytes are copied
  | store (ts : Nat)               -- line 63
  | incr                           -- line 64
  | accepted                       -- returned `len(b), nil`
  | chk                            -- line 69
  | dropped                        -- called `drop(b)`, lines 50 and 70

/-- The reader, decouple.go:76-101. -/
inductive RPc (α : Type) where
  | idle                                    -- before line 77
  | spin (idx : Nat)                        -- line 85
  | look (idx : Nat)                        -- line 94, before `d.buffer[idx]` is read
  | view (idx : Nat) (h : Hdr) (got : List α) -- line 94, inside `view`: the bytes read so far
  | clear (idx : Nat)                       -- line 96
  | decr                                    -- line 97

/-- `src`: the callers' slices; `arg`: their contents when `Write` was called; `log`: what the views read. -/
structure St (α : Type) where
  rd : Nat
  wr : Nat
  len : Nat
  lock : Nat → Nat
  hdr : Nat → Hdr
  mem : Nat → α
  brk : Nat
  wpc : Nat → WPc
  rpc : RPc α
  src : Nat → List α
  arg : Nat → List α
  log : List (List α)
  attempts : Nat        -- ghost: how often line 54 was executed
  crashed : Bool        -- division by zero

variable {α : Type}

/-- decouple.go:22-41. The memory may contain anything. -/
def init (mem : Nat → α) (src : Nat → List α) : St α where
  rd := 0
  wr := W - 1
  len := 0
  lock := fun _ => emptyL
  hdr := fun _ => ⟨0, 0, 0⟩
  mem := mem
  brk := 0
  wpc := fun _ => .new
  rpc := .idle
  src := src
  arg := fun _ => []
  log := []
  attempts := 0
  crashed := false

def upd {β : Type} (f : Nat → β) (i : Nat) (x : β) : Nat → β := fun i' => if i' = i then x else f i'

def St.at (s : St α) (j : Nat) (p : WPc) : St α := { s with wpc := upd s.wpc j p }

/-- The caller of `Write` call `j` owns its slice. -/
def WPc.outside : WPc → Bool
  | .new => true
  | .accepted => true
  | .dropped => true
  | _ => false

inductive Step (size : Nat) : St α → St α → Prop where
  -- the callers
  | poke (s) (j : Nat) (l : List α) : (s.wpc j).outside = true → Step size s { s with src := upd s.src j l }
  -- Write
  | callEmpty (s) (j : Nat) : s.wpc j = .new → (s.src j).length = 0 →
      Step size s ({ s with arg := upd s.arg j (s.src j) }.at j .dropped)
  | call (s) (j : Nat) : s.wpc j = .new → (s.src j).length ≠ 0 →
      Step size s ({ s with arg := upd s.arg j (s.src j) }.at j .add)
  | add (s) (j : Nat) : s.wpc j = .add → size ≠ 0 →
      Step size s ({ s with wr := (s.wr + 1) % W, attempts := s.attempts + 1 }.at j (.load ((s.wr + 1) % W)))
  | addCrash (s) (j : Nat) : s.wpc j = .add → size = 0 → Step size s { s with crashed := true }
  | loadEmpty (s) (j ts : Nat) : s.wpc j = .load ts → s.lock (slot size ts) = emptyL → Step size s (s.at j (.cas ts))
  | loadBusy (s) (j ts : Nat) : s.wpc j = .load ts → s.lock (slot size ts) = busyL → Step size s (s.at j .add)
  | loadFull (s) (j ts : Nat) : s.wpc j = .load ts → s.lock (slot size ts) ≠ emptyL → s.lock (slot size ts) ≠ busyL →
      Step size s (s.at j .chk)
  | casOk (s) (j ts : Nat) : s.wpc j = .cas ts → s.lock (slot size ts) = emptyL →
      Step size s ({ s with lock := upd s.lock (slot size ts) busyL }.at j (.grow ts))
  | casFail (s) (j ts : Nat) : s.wpc j = .cas ts → s.lock (slot size ts) ≠ emptyL → Step size s (s.at j .add)
  | growHere (s) (j ts : Nat) : s.wpc j = .grow ts → (s.src j).length ≤ (s.hdr (slot size ts)).cap →
      Step size s (s.at j (.fill ts (s.hdr (slot size ts)).base (s.hdr (slot size ts)).cap 0))
  | growNew (s) (j ts c : Nat) : s.wpc j = .grow ts → (s.hdr (slot size ts)).cap < (s.src j).length → (s.src j).length ≤ c →
      Step size s ({ s with brk := s.brk + c }.at j (.fill ts s.brk c 0))
  | fillByte (s) (j ts b c k : Nat) (x : α) : s.wpc j = .fill ts b c k → (s.src j)[k]? = some x →
      Step size s ({ s with mem := upd s.mem (b + k) x }.at j (.fill ts b c (k + 1)))
  | fillEnd (s) (j ts b c k : Nat) : s.wpc j = .fill ts b c k → k = (s.src j).length →
      Step size s ({ s with hdr := upd s.hdr (slot size ts) ⟨b, k, c⟩ }.at j (.store ts))
  | store (s) (j ts : Nat) : s.wpc j = .store ts →
      Step size s ({ s with lock := upd s.lock (slot size ts) ts }.at j .incr)
  | incr (s) (j : Nat) : s.wpc j = .incr → Step size s ({ s with len := (s.len + 1) % W }.at j .accepted)
  | chkFull (s) (j : Nat) : s.wpc j = .chk → s.len = size → Step size s (s.at j .dropped)
  | chkRetry (s) (j : Nat) : s.wpc j = .chk → s.len ≠ size → Step size s (s.at j .add)
  -- Next
  | nextNone (s) : s.rpc = .idle → s.len = 0 → Step size s s
  | nextCrash (s) : s.rpc = .idle → s.len ≠ 0 → size = 0 → Step size s { s with crashed := true }
  | next (s) : s.rpc = .idle → s.len ≠ 0 → size ≠ 0 → Step size s { s with rpc := .spin (slot size s.rd) }
  | spinWait (s) (i : Nat) : s.rpc = .spin i → (s.lock i = emptyL ∨ s.lock i = busyL) → Step size s s
  | spinEnd (s) (i : Nat) : s.rpc = .spin i → s.lock i ≠ emptyL → s.lock i ≠ busyL → Step size s { s with rpc := .look i }
  | look (s) (i : Nat) : s.rpc = .look i → Step size s { s with rpc := .view i (s.hdr i) [] }
  | viewRead (s) (i : Nat) (h : Hdr) (got : List α) : s.rpc = .view i h got → got.length < h.len →
      Step size s { s with rpc := .view i h (got ++ [s.mem (h.base + got.length)]) }
  | viewWrite (s) (i : Nat) (h : Hdr) (got : List α) (p : Nat) (x : α) : s.rpc = .view i h got →
      p < h.cap → (p < got.length ∨ h.len ≤ p) → Step size s { s with mem := upd s.mem (h.base + p) x }
  | viewEnd (s) (i : Nat) (h : Hdr) (got : List α) : s.rpc = .view i h got → got.length = h.len →
      Step size s { s with log := s.log ++ [got], rpc := .clear i }
  | clear (s) (i : Nat) : s.rpc = .clear i → Step size s { s with lock := upd s.lock i emptyL, rpc := .decr }
  | decr (s) : s.rpc = .decr →
      Step size s { s with len := (s.len + (W - 1)) % W, rd := (s.rd + 1) % W, rpc := .idle }

inductive Reach (size : Nat) : St α → Prop where
  | init (mem : Nat → α) (src : Nat → List α) : Reach size (init mem src)
  | step {s s' : St α} : Reach size s → Step size s s' → Reach size s'

end Verif.DecMem
