import Verif.DecMem.Model
/-!
# What the decoupler promises about memory
-/
namespace Verif.DecMem
open Verif.Decouple (W emptyL busyL slot)

variable {α : Type}

/-- The bytes of a slice. -/
def content (mem : Nat → α) (h : Hdr) : List α := (List.range h.len).map (fun x => mem (h.base + x))

/-- `js`: the calls whose bytes were shown, in order. Shown are the bytes the slice had when `Write` was called. An
accepted call that was not shown has its bytes in a slot, unless the view has got that slot in hand. -/
structure Delivers (size : Nat) (s : St α) : Prop where
  delivery : ∃ js : List Nat, js.Nodup ∧ s.log = js.map s.arg ∧ (∀ j ∈ js, s.wpc j = .incr ∨ s.wpc j = .accepted) ∧
    ∀ j, s.wpc j = .accepted → j ∉ js → ∃ i, i < size ∧
      (content s.mem (s.hdr i) = s.arg j ∨ ∃ h got, s.rpc = .view i h got ∧ got = (s.arg j).take got.length)
  /-- Inside the view. -/
  viewing : ∀ i h got, s.rpc = .view i h got → ∃ j, (s.wpc j = .incr ∨ s.wpc j = .accepted) ∧ got = (s.arg j).take got.length ∧
    h.len = (s.arg j).length ∧ ∀ x, got.length ≤ x → x < h.len → some (s.mem (h.base + x)) = (s.arg j)[x]?

/-- The goroutines. -/
inductive Actor where
  | writer (j : Nat)
  | reader
  deriving DecidableEq

/-- The variables that are not atomic: bytes and slots. -/
inductive Var where
  | byte (a : Nat)
  | slot (i : Nat)
  deriving DecidableEq

/-- `Uses size s a v`: the next thing `a` does may read or write `v`. -/
inductive Uses (size : Nat) (s : St α) : Actor → Var → Prop where
  /-- `append` looks at the slot -/
  | grow (j ts) : s.wpc j = .grow ts → Uses size s (.writer j) (.slot (slot size ts))
  /-- it writes a byte -/
  | fill (j ts b c k) : s.wpc j = .fill ts b c k → k < (s.src j).length → Uses size s (.writer j) (.byte (b + k))
  /-- its result is assigned -/
  | assign (j ts b c k) : s.wpc j = .fill ts b c k → Uses size s (.writer j) (.slot (slot size ts))
  /-- the reader looks at the slot -/
  | look (i) : s.rpc = .look i → Uses size s .reader (.slot i)
  /-- the view reads or writes a byte -/
  | touch (i h got p) : s.rpc = .view i h got → p < h.cap → Uses size s .reader (.byte (h.base + p))

/-- Two goroutines are about to use the same variable. -/
def Race (size : Nat) (s : St α) (a b : Actor) (v : Var) : Prop := a ≠ b ∧ Uses size s a v ∧ Uses size s b v

end Verif.DecMem
