import Verif.HandOut.Model
import Verif.BitSet.Model
/-!
# Model of a `dsx/setx/bitsetx` bit set that hands out numbers to goroutines

The program keeps the numbers that are in use in a bit set behind a `sync.Mutex`, unlocked with `defer`. Each call below is made with the
mutex held; it is one step. A word type of any width.
-/
namespace Verif.BitAlloc
open Verif.Go Verif.Conc Verif.BitSet
open Verif.Linked (Res)

variable {w : Nat}

/-- `b.Set(i); return i, true`. bitsetx.go:11-15. -/
def mark (d : BitVec w) (i : Nat) : Outcome (BitVec w × Option Nat) := (set d [i]).2.map fun _ => ((set d [i]).1, some i)

/-- `for b.Test(i) { i++ }`. bitsetx.go:29-35. The first number is fuel. -/
def find (d : BitVec w) : Nat → Nat → Outcome Nat
  | 0, _ => .hang
  | f + 1, i => (test d [(i : Int)]).bind fun t => if t then find d f (i + 1) else .ret i

/-- `if b.IsFull() { return 0, false }; i := 0; for b.Test(i) { i++ }; b.Set(i); return i, true`. bitsetx.go:41-43 (`IsFull`). -/
def alloc (d : BitVec w) : Outcome (BitVec w × Option Nat) :=
  if isFull d then .ret (d, none) else (find d (w + 1) 0).bind fun i => mark d i

/-- `for i := 0; i < n; i++ { if !b.Test(i) { ... } }`, with the number of rounds that are left. bitsetx.go:29-35. -/
def scan (d : BitVec w) : Nat → Nat → Outcome (Option Nat)
  | 0, _ => .ret none
  | r + 1, i => (test d [(i : Int)]).bind fun t => if t then scan d r (i + 1) else .ret (some i)

/-- `for i := 0; i < n; i++ { if !b.Test(i) { b.Set(i); return i, true } }; return 0, false`. -/
def allocBelow (n : Nat) (d : BitVec w) : Outcome (BitVec w × Option Nat) :=
  (scan d n 0).bind fun
    | none => .ret (d, none)
    | some i => mark d i

/-- The calls: for a number, `b.Clear(i)` and `b.Test(i)`. -/
inductive Call where
  | alloc
  | free (i : Int)
  | used (i : Int)

/-- A number, or that there is none, as a result. -/
def number : Option Nat → Res Nat
  | some i => .val i
  | none => .none

/-- A call on the word `d`. bitsetx.go:17-21 (`Clear`), 29-35 (`Test`): a negative number makes them panic. -/
def call (al : BitVec w → Outcome (BitVec w × Option Nat)) (d : BitVec w) (c : Call) (r : Res Nat) (d' : BitVec w) : Prop :=
  match c with
  | .alloc => ∃ x, al d = .ret (d', x) ∧ r = number x
  | .free i => d' = (clear d [i]).1 ∧ r = (match (clear d [i]).2 with | .ret _ => .unit | _ => .panic)
  | .used i => d' = d ∧ r = (match test d [i] with | .ret t => .bool t | _ => .panic)

/-- The bit set behind the mutex, empty (its zero value), bitsetx.go:7-9. -/
def pool (w : Nat) (al : BitVec w → Outcome (BitVec w × Option Nat)) : RW.Guarded (BitVec w) Unit Call (Res Nat) :=
  HandOut.behind 0#w (call al)

end Verif.BitAlloc
