import Verif.BitSet.Model
/-!
# A bit set (`dsx/setx/bitsetx/bitsetx.go`) used by several goroutines

A goroutine has a list of calls of `Set`, `Clear`, `Toggle` and `Test`. Every read and every write of the word `b.data` is a step:
`b.data |= 1 << i` reads the word, and writes it in a later step. With `locked` every call is made holding one mutex, which a deferred
`Unlock` releases also when the call panics; without, the goroutines call the methods as they are. Panics of a call are recovered by the
goroutine, which goes on with its next call.
-/
namespace Verif.BitShare
open Verif.BitSet Verif.Go

/-- The methods that take indices. -/
inductive Op where
  | set
  | clear
  | toggle
  | test
deriving DecidableEq

structure Call where
  op : Op
  is : List Int

/-- What a call gives: nothing, a truth value (`Test`), or a panic. -/
inductive Res where
  | void
  | bool (b : Bool)
  | panic
deriving DecidableEq

variable {w : Nat}

/-- Where a goroutine is: between calls; in the loop of a method, `t` being the variable of `Test` (bitsetx.go:30); having read the word and
about to write it (bitsetx.go:13, 19, 25); at the end of the call. -/
inductive Pc (w : Nat) where
  | idle
  | loop (op : Op) (t : Bool) (is : List Int)
  | mid (op : Op) (i : Int) (is : List Int) (reg : BitVec w)
  | fin (r : Res)

/-- A goroutine: the calls to come, where it is, and the results so far. -/
structure Th (w : Nat) where
  calls : List Call
  pc : Pc w
  res : List Res

/-- The word that a method writes after reading `d`: bitsetx.go:13, 19, 25. -/
def app (op : Op) (i : Int) (d : BitVec w) : BitVec w :=
  match op with
  | .set => d ||| 1#w <<< i.toNat
  | .clear => d &&& ~~~ (1#w <<< i.toNat)
  | .toggle => d ^^^ 1#w <<< i.toNat
  | .test => d

/-- What a call that has not panicked gives. -/
def endRes (op : Op) (t : Bool) : Res := if op = .test then .bool t else .void

/-- What a step has to do with the mutex. -/
inductive Lab where
  | acq
  | rel
  | none
deriving DecidableEq

/-- A step of a goroutine that finds the word `d`: bitsetx.go:11-35. -/
inductive Mv : BitVec w → Th w → Lab → BitVec w → Th w → Prop where
  | call {d c cs res} : Mv d ⟨c :: cs, .idle, res⟩ .acq d ⟨cs, .loop c.op false c.is, res⟩
  | done {d op t cs res} : Mv d ⟨cs, .loop op t [], res⟩ .none d ⟨cs, .fin (endRes op t), res⟩
  | skip {d i is cs res} : Mv d ⟨cs, .loop .test true (i :: is), res⟩ .none d ⟨cs, .loop .test true is, res⟩
  | neg {d op t i is cs res} : i < 0 → (op = .test → t = false) →
      Mv d ⟨cs, .loop op t (i :: is), res⟩ .none d ⟨cs, .fin .panic, res⟩
  | look {d i is cs res} : 0 ≤ i →
      Mv d ⟨cs, .loop .test false (i :: is), res⟩ .none d ⟨cs, .loop .test (d &&& 1#w <<< i.toNat != 0#w) is, res⟩
  | load {d op t i is cs res} : 0 ≤ i → op ≠ .test → Mv d ⟨cs, .loop op t (i :: is), res⟩ .none d ⟨cs, .mid op i is d, res⟩
  | store {d op i is reg cs res} : Mv d ⟨cs, .mid op i is reg, res⟩ .none (app op i reg) ⟨cs, .loop op false is, res⟩
  | ret {d r cs res} : Mv d ⟨cs, .fin r, res⟩ .rel d ⟨cs, .idle, res ++ [r]⟩

structure St (w : Nat) where
  data : BitVec w
  mu : Option Nat
  thr : Nat → Th w

def upd {β : Type} (f : Nat → β) (i : Nat) (b : β) : Nat → β := fun k => if k = i then b else f k

/-- The mutex after a step of `t`. -/
def muAfter (mu : Option Nat) (t : Nat) : Lab → Option Nat
  | .acq => some t
  | .rel => none
  | .none => mu

/-- A step of goroutine `t`. Without `locked` the mutex does not matter. -/
inductive Step (locked : Bool) (t : Nat) : St w → St w → Prop where
  | mk {s l d th} : Mv s.data (s.thr t) l d th → (locked = true → l = .acq → s.mu = none) →
      Step locked t s ⟨d, muAfter s.mu t l, upd s.thr t th⟩

/-- The start: the word `d`, every goroutine with its calls. -/
def start (d : BitVec w) (prog : Nat → List Call) : St w := ⟨d, none, fun t => ⟨prog t, .idle, []⟩⟩

inductive Reach (locked : Bool) (d : BitVec w) (prog : Nat → List Call) : St w → Prop where
  | start : Reach locked d prog (start d prog)
  | step {s s' t} : Reach locked d prog s → Step locked t s s' → Reach locked d prog s'

end Verif.BitShare
