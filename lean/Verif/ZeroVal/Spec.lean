import Verif.ZeroVal.Model
/-!
# What containers show that were not made by their constructor
-/
namespace Verif.ZeroVal
open Verif.Go

/-! ## The linked containers: nothing can be put in -/
section linked
open Verif.Linked
variable {T : Type}

/-- A queue that stays empty and panics when asked to take something. -/
def queueShown : Queue.Op T → Res T
  | .enqueue _ _ => .panic
  | .dequeue => .none
  | .peek => .none
  | .isEmpty => .bool true

/-- The same for a deque. -/
def dequeShown : Deque.Op T → Res T
  | .pushFront _ _ => .panic
  | .pushBack _ _ => .panic
  | _ => .none

/-- The same for a stack that has been asked `n` times to take something; it says it has `n`. -/
def stackShown (n : Nat) : List (Stack.Op T) → List (Res T)
  | [] => []
  | .push _ _ :: ops => .panic :: stackShown (n + 1) ops
  | .pop :: ops => .none :: stackShown n ops
  | .peek :: ops => .none :: stackShown n ops
  | .len :: ops => .num n :: stackShown n ops

/-- The same for a list; `n` is the number of `Append` and `Insert` calls less the number of `Remove`
calls. -/
def listShown (n : Int) : List (LList.Op T) → List (Res T)
  | [] => []
  | .append _ _ :: ops => .panic :: listShown (n + 1) ops
  | .insert _ _ _ :: ops => .panic :: listShown (n + 1) ops
  | .remove _ :: ops => .none :: listShown (n - 1) ops
  | .at _ :: ops => .none :: listShown n ops
  | .iterate _ :: ops => .vals [] :: listShown n ops
  | .len :: ops => .num n :: listShown n ops

/-- The calls that put nothing in. -/
def Queue.reads : Queue.Op T → Prop
  | .enqueue _ _ => False
  | _ => True

def Deque.reads : Deque.Op T → Prop
  | .pushFront _ _ => False
  | .pushBack _ _ => False
  | _ => True

def Stack.reads : Stack.Op T → Prop
  | .push _ _ => False
  | _ => True

def LList.reads : LList.Op T → Prop
  | .append _ _ => False
  | .insert _ _ _ => False
  | _ => True
end linked

/-- A ring of no room and no capacity. -/
def ringShown {T : Type} : Ring.Op T → Ring.Res T
  | .enqueue _ => .panic
  | .dequeue => .none
  | .head => .panic
  | .cap => .num (-1)
  | .isEmpty => .bool true
  | .isFull => .panic
  | .peek => .none

/-- An ordered map in which nothing is found, and of which most questions panic. -/
def ordShown {K V : Type} : MOp K V → Outcome (MRes K V)
  | .get _ => .ret (.found none)
  | .del _ => .ret .unit
  | _ => .panic

/-- A skip list map that only knows its length. -/
def sklShown {K V : Type} : MOp K V → Outcome (MRes K V)
  | .len => .ret (.num 0)
  | _ => .panic

def isClear {K V : Type} : MOp K V → Bool
  | .clear _ => true
  | _ => false

/-- A `Map` call that neither stores nor clears. -/
def quiet {K V : Type} : SyncMap.Call K V → Bool
  | .set _ _ => false
  | .clear => false
  | _ => true

/-! ## The property

Every history of calls on the zero value shows what it shows on a container made by `New`. -/

def QueueAsNew : Prop := ∀ (T : Type) [Inhabited T] (ops : List (Linked.Queue.Op T)),
  queueRun queueZero ops = Linked.Queue.run Linked.Queue.new ops
def DequeAsNew : Prop := ∀ (T : Type) [Inhabited T] (ops : List (Linked.Deque.Op T)),
  dequeRun dequeZero ops = Linked.Deque.run Linked.Deque.new ops
def StackAsNew : Prop := ∀ (T : Type) [Inhabited T] (ops : List (Linked.Stack.Op T)),
  stackRun stackZero ops = Linked.Stack.run Linked.Stack.new ops
def ListAsNew : Prop := ∀ (T : Type) [Inhabited T] (ops : List (Linked.LList.Op T)),
  listRun listZero ops = Linked.LList.run Linked.LList.new ops
/-- The zero ring is a ring of some capacity. -/
def RingAsNew : Prop := ∀ (T : Type) [Inhabited T], ∃ (n : Int) (r : Ring.Ring T),
  Ring.new n = .ret (some r) ∧ ∀ ops, ringRun ringZero ops = Ring.run r ops
def SliceStackAsNew : Prop := ∀ (T : Type) [Inhabited T] (h : Hp T) (ops : List (SliceC.SOp T)),
  SliceC.stackRun (sliceStackZero h) ops = SliceC.stackRun (SliceC.newStack h) ops
def MapAsNew : Prop := ∀ (K V : Type) [DecidableEq K] [DecidableEq V] [Inhabited V]
  (ops : List (SyncMap.Call K V)), smapRun smapZero ops = smapRun smapNew ops
def SklAsNew : Prop := ∀ (K V : Type) [GoOrdered K] [Inhabited K] [Inhabited V] (seed : BitVec 64)
  (ops : List (MOp K V)), sklRun none ops = sklRun (some (Skl.new seed)) ops
def OrdAsNew : Prop := ∀ (K V : Type) [GoOrdered K] [Inhabited K] [Inhabited V] (seed : BitVec 64)
  (ops : List (MOp K V)), ordRun ordZero ops = ordNewRun (Ord.new seed) ops

end Verif.ZeroVal
