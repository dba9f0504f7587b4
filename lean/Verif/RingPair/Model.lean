import Verif.Conc.Lin
import Verif.Ring.Model
/-!
# Model of a ring queue (`dsx/slicex/queuex`) used by two goroutines at once, without a lock

One goroutine puts elements in (`Enqueue`, `IsFull`), the other takes them out (`Dequeue`, `Peek`, `IsEmpty`). Every read and every
write of `head`, of `tail` and of an element of `data` is one step, and the steps of the two goroutines interleave in any way; a read
sees the last write. (That is more than Go promises to programs with data races; see `C149_race`.) `cap` and the slice header never
change. A caller recovers from panics.
-/
namespace Verif.RingPair
open Verif.Conc Verif.Go
open Verif.Ring (Op Res at?)

variable {T : Type}

/-- The goroutine that puts in: `start` before its first read, `saw` with the value of `head` it read, `free` after `IsFull`,
`stored` after the element is written, `out` before the return. -/
inductive PPc (T : Type) where
  | idle
  | start (id : Nat) (c : Op T)
  | saw (id : Nat) (c : Op T) (h : Int)
  | free (id : Nat) (v : T)
  | stored (id : Nat) (v : T)
  | out (id : Nat) (c : Op T) (r : Res T)

/-- The goroutine that takes out: `some` after `IsEmpty`, `got` with the element it read. -/
inductive CPc (T : Type) where
  | idle
  | start (id : Nat) (c : Op T)
  | saw (id : Nat) (c : Op T) (h : Int)
  | some (id : Nat) (c : Op T)
  | got (id : Nat) (v : T)
  | out (id : Nat) (c : Op T) (r : Res T)

/-- The ring, both goroutines and the history. -/
structure St (T : Type) where
  r : Ring.Ring T
  prod : PPc T
  cons : CPc T
  next : Nat
  hist : List (Event (Op T) (Res T))

def start (r : Ring.Ring T) : St T := ⟨r, .idle, .idle, 0, []⟩

/-- The calls of the one side. -/
def Puts : Op T → Prop
  | .enqueue _ => True
  | .isFull => True
  | _ => False

/-- The calls of the other. -/
def Takes : Op T → Prop
  | .dequeue => True
  | .peek => True
  | .isEmpty => True
  | _ => False

/-- queuex.go:33, 42, 59: the next index. -/
def succ (r : Ring.Ring T) (i : Int) : Int := (wrap64 (i + 1)).tmod r.cap

/-- What the calls return when the ring is full (queuex.go:29-31, 59). -/
def onFull : Op T → Res T
  | .isFull => .bool true
  | _ => .bool false

/-- What the calls return when the ring is empty (queuex.go:38-40, 55, 63-65). -/
def onEmpty : Op T → Res T
  | .isEmpty => .bool true
  | _ => .none

/-- One step of the goroutine that puts in. -/
inductive PStep : St T → St T → Prop
  | invoke {s c} : s.prod = .idle → Puts c →
      PStep s { s with prod := .start s.next c, next := s.next + 1, hist := s.hist ++ [.inv s.next c] }
  | head {s id c} : s.prod = .start id c → PStep s { s with prod := .saw id c s.r.head }              -- queuex.go:59, `r.head`
  | full {s id c h} : s.prod = .saw id c h → h = succ s.r s.r.tail →                                  -- 59, `r.tail`
      PStep s { s with prod := .out id c (onFull c) }
  | notFull {s id h} : s.prod = .saw id .isFull h → h ≠ succ s.r s.r.tail →
      PStep s { s with prod := .out id .isFull (.bool false) }
  | free {s id v h} : s.prod = .saw id (.enqueue v) h → h ≠ succ s.r s.r.tail → PStep s { s with prod := .free id v }
  | store {s id v x} : s.prod = .free id v → at? s.r.data s.r.tail = some x →                         -- 32
      PStep s { s with prod := .stored id v, r := { s.r with data := s.r.data.set s.r.tail.toNat v } }
  | panic {s id v} : s.prod = .free id v → at? s.r.data s.r.tail = none →
      PStep s { s with prod := .out id (.enqueue v) .panic }
  | tail {s id v} : s.prod = .stored id v →                                                           -- 33-34
      PStep s { s with prod := .out id (.enqueue v) (.bool true), r := { s.r with tail := succ s.r s.r.tail } }
  | ret {s id c r} : s.prod = .out id c r → PStep s { s with prod := .idle, hist := s.hist ++ [.ret id r] }

/-- One step of the goroutine that takes out. -/
inductive CStep : St T → St T → Prop
  | invoke {s c} : s.cons = .idle → Takes c →
      CStep s { s with cons := .start s.next c, next := s.next + 1, hist := s.hist ++ [.inv s.next c] }
  | head {s id c} : s.cons = .start id c → CStep s { s with cons := .saw id c s.r.head }              -- queuex.go:55, `r.head`
  | empty {s id c h} : s.cons = .saw id c h → h = s.r.tail →                                          -- 55, `r.tail`
      CStep s { s with cons := .out id c (onEmpty c) }
  | notEmpty {s id h} : s.cons = .saw id .isEmpty h → h ≠ s.r.tail → CStep s { s with cons := .out id .isEmpty (.bool false) }
  | some {s id c h} : s.cons = .saw id c h → c ≠ .isEmpty → h ≠ s.r.tail → CStep s { s with cons := .some id c }
  | read {s id x} : s.cons = .some id .dequeue → at? s.r.data s.r.head = Option.some x → CStep s { s with cons := .got id x }  -- 41
  | peek {s id x} : s.cons = .some id .peek → at? s.r.data s.r.head = Option.some x →                 -- 66
      CStep s { s with cons := .out id .peek (.val x) }
  | panic {s id c} : s.cons = .some id c → at? s.r.data s.r.head = none → CStep s { s with cons := .out id c .panic }
  | take {s id v} : s.cons = .got id v →                                                              -- 42-43
      CStep s { s with cons := .out id .dequeue (.val v), r := { s.r with head := succ s.r s.r.head } }
  | ret {s id c r} : s.cons = .out id c r → CStep s { s with cons := .idle, hist := s.hist ++ [.ret id r] }

inductive Step : St T → St T → Prop
  | prod {s s'} : PStep s s' → Step s s'
  | cons {s s'} : CStep s s' → Step s s'

/-- States some schedule reaches from the ring `r`. -/
inductive Reach (r : Ring.Ring T) : St T → Prop
  | init : Reach r (start r)
  | step {s s'} : Reach r s → Step s s' → Reach r s'

/-- A memory location. -/
inductive Loc where
  | head
  | tail
  | data (i : Int)

/-- The goroutine that puts in is about to access a location, for writing if `w`. -/
inductive PAccess (s : St T) : Loc → (w : Bool) → Prop
  | head {id c} : s.prod = .start id c → PAccess s .head false
  | tail {id c h} : s.prod = .saw id c h → PAccess s .tail false
  | data {id v x} : s.prod = .free id v → at? s.r.data s.r.tail = some x → PAccess s (.data s.r.tail) true
  | move {id v} : s.prod = .stored id v → PAccess s .tail true

/-- The same of the other. -/
inductive CAccess (s : St T) : Loc → (w : Bool) → Prop
  | head {id c} : s.cons = .start id c → CAccess s .head false
  | tail {id c h} : s.cons = .saw id c h → CAccess s .tail false
  | data {id c x} : s.cons = .some id c → at? s.r.data s.r.head = Option.some x → CAccess s (.data s.r.head) false
  | move {id v} : s.cons = .got id v → CAccess s .head true

end Verif.RingPair
