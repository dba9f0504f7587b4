import Verif.SliceC.Lemmas
/-!
# Copies of slice stacks and slice lists

`dsx/slicex/stackx.Stack` is a struct with one slice, `dsx/slicex/listx.List` is a slice type: assigning one variable to another copies the
slice header and shares the array (`t := *s`, `l2 := l1`). A program has variables, each with a stack or list, copies them and calls the
methods of C18 and C19 on them. All of them live in one memory.
-/
namespace Verif.CopyVal
open Verif.Go Verif.SliceC

variable {T : Type} [Inhabited T]

/-- A method of a stack (stackx.go:15-43) or of a list (listx.go:9-48). -/
inductive Meth (T : Type) where
  | stack (o : SOp T)
  | list (o : LOp T)

/-- A statement: the assignment of variable `i` to variable `j`, or a call on variable `i`. -/
inductive Cmd (T : Type) where
  | copy (i j : Nat)
  | call (i : Nat) (m : Meth T)

/-- Memory and the slice headers in the variables. -/
structure World (T : Type) where
  h : Hp T
  v : Nat → Sl

/-- The variables after an assignment to variable `i`. -/
def upd {β : Type} (f : Nat → β) (i : Nat) (b : β) : Nat → β := fun k => if k = i then b else f k

/-- A call on a variable, as in C18 (stackx.go:15-43) and C19 (listx.go:9-48). -/
def meth (x : St T) : Meth T → St T × Res T
  | .stack o => stackStep x o
  | .list o => listStep x o

/-- All variables have their zero value, a nil slice (stackx.go:7-9, listx.go:7). -/
def start (h : Hp T) : World T := ⟨h, fun _ => Sl.nil⟩

/-- One statement; an assignment copies the header only (the struct of stackx.go:7-9, the slice of listx.go:7). -/
def step (w : World T) : Cmd T → World T × Res T
  | .copy i j => (⟨w.h, upd w.v j (w.v i)⟩, .unit)
  | .call i m => (⟨(meth ⟨w.h, w.v i⟩ m).1.h, upd w.v i (meth ⟨w.h, w.v i⟩ m).1.s⟩, (meth ⟨w.h, w.v i⟩ m).2)

/-- The results of a program. -/
def run (w : World T) : List (Cmd T) → List (Res T)
  | [] => []
  | c :: cs => (step w c).2 :: run (step w c).1 cs

end Verif.CopyVal
