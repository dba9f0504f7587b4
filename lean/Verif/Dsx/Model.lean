import Verif.ListExact.Spec
import Verif.Linked.Queue
import Verif.Linked.Stack
import Verif.Linked.List
import Verif.Ring.Model
import Verif.SliceC.Spec
/-!
# The interfaces of `dsx/dsx.go` and their implementations

A program that uses one of the interfaces makes calls and sees results. Each interface has two
implementations in the repository: `Stack` and `List` a linked and a slice one, `Queue` a linked one
and the ring. (`Deque` has one.) The models of the implementations are those of C13, C14, C16-C19.
-/
namespace Verif.Dsx
open Verif.Linked

variable {T : Type}

/-- dsx.go:28-33 `Stack`. -/
inductive SOp (T : Type) where
  | push (v : T)
  | pop
  | peek
  | len

/-- dsx.go:21-26 `Queue`. -/
inductive QOp (T : Type) where
  | enqueue (v : T)
  | dequeue
  | peek
  | isEmpty

/-- dsx.go:12-19 `List`. -/
inductive LOp (T : Type) where
  | append (v : T)
  | insert (i : Int) (v : T)
  | remove (i : Int)
  | at (i : Int)
  | iterate (f : List T → Bool)
  | len

/-- What the runtime decides during a call: the node the pool hands out and the growth of a slice. -/
structure Rt where
  node : Option Nat
  grow : Nat

/-- A call of an interface as a call of the linked stack (stackx.go:14). -/
def SOp.linked (r : Rt) : SOp T → Stack.Op T
  | .push v => .push v r.node
  | .pop => .pop
  | .peek => .peek
  | .len => .len

/-- The same of the slice stack (slicex/stackx/stackx.go:5). -/
def SOp.slice (r : Rt) : SOp T → SliceC.SOp T
  | .push v => .push v r.grow
  | .pop => .pop
  | .peek => .peek
  | .len => .len

/-- queuex.go:14. -/
def QOp.linked (r : Rt) : QOp T → Queue.Op T
  | .enqueue v => .enqueue v r.node
  | .dequeue => .dequeue
  | .peek => .peek
  | .isEmpty => .isEmpty

/-- slicex/queuex/queuex.go:7. -/
def QOp.ring : QOp T → Ring.Op T
  | .enqueue v => .enqueue v
  | .dequeue => .dequeue
  | .peek => .peek
  | .isEmpty => .isEmpty

/-- listx.go:14. -/
def LOp.linked (r : Rt) : LOp T → LList.Op T
  | .append v => .append v r.node
  | .insert i v => .insert i v r.node
  | .remove i => .remove i
  | .at i => .at i
  | .iterate f => .iterate f
  | .len => .len

/-- slicex/listx/listx.go:5. -/
def LOp.slice (r : Rt) : LOp T → SliceC.LOp T
  | .append v => .append v r.grow
  | .insert i v => .insert i v r.grow
  | .remove i => .remove i
  | .at i => .at i
  | .iterate f => .iterate f
  | .len => .len

/-- Results of the slice containers, as the program sees them. -/
def ofSlice : SliceC.Res T → Res T
  | .unit => .unit
  | .none => .none
  | .val v => .val v
  | .bool b => .bool b
  | .num n => .num n
  | .vals l => .vals l
  | .panic => .panic

/-- Results of the ring. -/
def ofRing : Ring.Res T → Res T
  | .none => .none
  | .val v => .val v
  | .bool b => .bool b
  | .num n => .num n
  | .panic => .panic

variable [Inhabited T]

/-- A program over `Stack` with the linked implementation. -/
def stackLinked (ops : List (SOp T × Rt)) : List (Res T) :=
  Stack.run Stack.new (ops.map fun o => o.1.linked o.2)

/-- The same with the slice implementation, in any memory. -/
def stackSlice (h : Go.Hp T) (ops : List (SOp T × Rt)) : List (Res T) :=
  (SliceC.stackRun (SliceC.newStack h) (ops.map fun o => o.1.slice o.2)).map ofSlice

def queueLinked (ops : List (QOp T × Rt)) : List (Res T) :=
  Queue.run Queue.new (ops.map fun o => o.1.linked o.2)

def queueRing (r : Ring.Ring T) (ops : List (QOp T × Rt)) : List (Res T) :=
  (Ring.run r (ops.map fun o => o.1.ring)).map ofRing

def listLinked (ops : List (LOp T × Rt)) : List (Res T) :=
  LList.run LList.new (ops.map fun o => o.1.linked o.2)

def listSlice (h : Go.Hp T) (ops : List (LOp T × Rt)) : List (Res T) :=
  (SliceC.listRun (SliceC.newList h) (ops.map fun o => o.1.slice o.2)).map ofSlice

end Verif.Dsx
