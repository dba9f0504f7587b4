import Verif.Linked.Queue
import Verif.Linked.Stack
import Verif.Linked.Deque
import Verif.Linked.List
import Verif.Ring.Model
import Verif.SliceC.Model
import Verif.SyncMap.Model
import Verif.Ord.Model
/-!
# The containers used without their constructor

`var q queuex.Queue[int]` and `new(T)` give a container whose fields are all zero. The models here
are the existing ones with what `New` fills in made optional: the `New` function of a pool, the
pool of the linked stack and list, the modulus of the ring, the map of `Map`, the head of the skip
list, the two fields of `OrdMap`. A caller recovers from panics and goes on.
-/
namespace Verif.ZeroVal
open Verif.Go

/-! ## The linked containers -/
section linked
open Verif.Linked
variable {T : Type} [Inhabited T]

/-- Does `pool.Get()` find a node that was put? With a nil `New` function a miss returns nil, and the
type assertion `.(*node[T])` on nil panics (queuex.go:33, dequex.go:39, 48, 64, 73). -/
def hit {N : Type} (m : Mem N) (choice : Option Nat) : Bool := (choice.bind (m.pool[·]?)).isSome

/-- The zero `Queue` (queuex.go:16-20): no nodes, a pool whose `New` is nil. `Enqueue` gets its node
first (queuex.go:33). -/
def queueStep (q : Queue.Queue T) : Queue.Op T → Queue.Queue T × Res T
  | .enqueue v c => if hit q.mem c then Queue.enqueue q v c else (q, .panic)
  | op => Queue.step q op

def queueRun (q : Queue.Queue T) : List (Queue.Op T) → List (Res T)
  | [] => []
  | op :: ops => (queueStep q op).2 :: queueRun (queueStep q op).1 ops

/-- The zero `Queue`. -/
def queueZero : Queue.Queue T := ⟨Mem.empty, none, none⟩

/-- Does `PushFront` take a node from the pool (dequex.go:38, 47)? -/
def frontGets (d : Deque.Deque T) : Bool :=
  match d.head with
  | none => true
  | some a => decide ((d.mem.node a).start = 0)

/-- Does `PushBack` take a node from the pool (dequex.go:63, 72)? -/
def backGets (d : Deque.Deque T) : Bool :=
  match d.tail with
  | none => true
  | some a => decide ((d.mem.node a).fin = Deque.nodeBufferSize)

/-- The zero `Deque` (dequex.go:21-25). -/
def dequeStep (d : Deque.Deque T) : Deque.Op T → Deque.Deque T × Res T
  | .pushFront v c => if frontGets d && !hit d.mem c then (d, .panic) else Deque.pushFront d v c
  | .pushBack v c => if backGets d && !hit d.mem c then (d, .panic) else Deque.pushBack d v c
  | op => Deque.step d op

def dequeRun (d : Deque.Deque T) : List (Deque.Op T) → List (Res T)
  | [] => []
  | op :: ops => (dequeStep d op).2 :: dequeRun (dequeStep d op).1 ops

/-- The zero `Deque`. -/
def dequeZero : Deque.Deque T := ⟨Mem.empty, none, none⟩

/-- The zero `Stack` (stackx.go:16-20) has a nil `*sync.Pool`: `Get` and `Put` on it panic.
`Push` has counted already (stackx.go:33), and so has `Pop` (stackx.go:45). -/
def stackStep (s : Stack.Stack T) : Stack.Op T → Stack.Stack T × Res T
  | .push _ _ => ({ s with length := s.length + 1 }, .panic)
  | .pop => match s.head with
    | none => Stack.pop s
    | some _ => ({ s with length := s.length - 1 }, .panic)
  | op => Stack.step s op

def stackRun (s : Stack.Stack T) : List (Stack.Op T) → List (Res T)
  | [] => []
  | op :: ops => (stackStep s op).2 :: stackRun (stackStep s op).1 ops

/-- The zero `Stack`. -/
def stackZero : Stack.Stack T := ⟨Mem.empty, none, 0⟩

/-- The zero `List` (listx.go:16-21) has a nil `*sync.Pool` too. `Append` and `Insert` have counted
already when `Get` panics (listx.go:34, 48). `Remove` reaches `Put` only when it has found a node
(listx.go:80, 93); without one it is what it is on any list. -/
def listStep (l : LList.LL T) : LList.Op T → LList.LL T × Res T
  | .append _ _ => ({ l with length := l.length + 1 }, .panic)
  | .insert _ _ _ => ({ l with length := l.length + 1 }, .panic)
  | .remove i => match (LList.remove l i).2 with
    | .val _ => ({ l with length := l.length - 1 }, .panic)
    | _ => LList.remove l i
  | op => LList.step l op

def listRun (l : LList.LL T) : List (LList.Op T) → List (Res T)
  | [] => []
  | op :: ops => (listStep l op).2 :: listRun (listStep l op).1 ops

/-- The zero `List`. -/
def listZero : LList.LL T := ⟨Mem.empty, none, none, 0⟩
end linked

/-! ## The ring -/
section ring
open Verif.Ring
variable {T : Type} [Inhabited T]

/-- The zero `Ring` (queuex.go:9-14): no storage, modulus 0. `% r.cap` panics when it is 0
(queuex.go:33, 42, 59); `IsFull` divides, and `Enqueue` asks it first (queuex.go:29). -/
def ringStep (r : Ring.Ring T) : Op T → Ring.Ring T × Res T
  | .enqueue v => if r.cap = 0 then (r, .panic) else enqueue r v
  | .isFull => if r.cap = 0 then (r, .panic) else (r, .bool (isFull r))
  | .dequeue => if r.cap = 0 ∧ isEmpty r = false then (r, .panic) else dequeue r
  | op => step r op

def ringRun (r : Ring.Ring T) : List (Op T) → List (Res T)
  | [] => []
  | op :: ops => (ringStep r op).2 :: ringRun (ringStep r op).1 ops

/-- The zero `Ring`. -/
def ringZero : Ring.Ring T := ⟨[], 0, 0, 0⟩
end ring

/-! ## The slice stack -/

/-- The zero slice `Stack` (stackx.go:7-9): a nil slice. -/
def sliceStackZero {T : Type} [Inhabited T] (h : Hp T) : SliceC.St T := ⟨h, Sl.nil⟩

/-! ## `syncmapx.Map` -/
section syncmap
open Verif.SyncMap
variable {K V : Type} [DecidableEq K] [DecidableEq V] [Inhabited V]

/-- One goroutine's view of a `Map`: the Go map, nil or not, and whether the lock was left held by a
call that panicked. -/
structure Smap (K V : Type) where
  m : Option (List (K × V))
  stuck : Bool

/-- The zero `Map` (syncmapx.go:6-9). -/
def smapZero : Smap K V := ⟨none, false⟩

/-- syncmapx.go:11-15 `New`. -/
def smapNew : Smap K V := ⟨some [], false⟩

/-- The methods (syncmapx.go:17-74), called one after the other. Reading a nil map and deleting from
it work as on an empty one; storing into it panics, between `Lock` and `Unlock`, which are not
deferred (syncmapx.go:59-61). Every method locks first and waits for ever once the lock is left held.
`keys` and `values` in the order of the list; Go's order is arbitrary. -/
def smapStep (s : Smap K V) (c : Call K V) : Smap K V × Outcome (Res K V) :=
  if s.stuck then (s, .hang)
  else match c with
    | .get k => (s, .ret (.val ((find (s.m.getD []) k).getD default)))
    | .has k => (s, .ret (.bool (find (s.m.getD []) k).isSome))
    | .size => (s, .ret (.num (s.m.getD []).length))
    | .keys => (s, .ret (.keys ((s.m.getD []).map (·.1))))
    | .values => (s, .ret (.vals ((s.m.getD []).map (·.2))))
    | .set k v => match s.m with
      | none => (⟨none, true⟩, .panic)
      | some m => (⟨some (assign m k v), false⟩, .ret .unit)
    | .delete k => (⟨s.m.map (erase · k), false⟩, .ret .unit)
    | .clear => (⟨some [], false⟩, .ret .unit)

def smapRun (s : Smap K V) : List (Call K V) → List (Outcome (Res K V))
  | [] => []
  | c :: cs => (smapStep s c).2 :: smapRun (smapStep s c).1 cs
end syncmap

/-! ## `sklmapx.SkipListMap` and `ordmapx.OrdMap` -/
section skl
open Verif.Skl
variable {K V : Type} [GoOrdered K] [Inhabited K] [Inhabited V]

/-- The methods of the two ordered maps. `clear` carries the seed the fresh list draws. -/
inductive MOp (K V : Type) where
  | set (k : K) (v : V)
  | get (k : K)
  | del (k : K)
  | len
  | keys
  | values
  | clear (seed : BitVec 64)

/-- What they show. -/
inductive MRes (K V : Type) where
  | unit
  | found (v : Option V)
  | num (n : Nat)
  | keys (l : List K)
  | vals (l : List V)

/-- A `SkipListMap` whose `skl` is nil pointers and zeros, or one that was made. -/
abbrev Smap? (K V : Type) := Option (World K V)

/-- Carry on with the state a method left, or with the one before it if it did not return. -/
def after {S : Type} (s : S) (R : Type) : Outcome (S × R) → S × Outcome R
  | .ret (s', r) => (s', .ret r)
  | .panic => (s, .panic)
  | .hang => (s, .hang)

/-- The methods of `SkipListMap` (sklmapx.go:91-191). On the zero value every search and
every first step of an iterator reads `next` through a nil `head` (sklmapx.go:42, 215); `Len` reads
the counter (sklmapx.go:171-173); `Clear` replaces the whole value (sklmapx.go:188-191). -/
def sklStep (s : Smap? K V) (op : MOp K V) : Smap? K V × Outcome (MRes K V) :=
  match s, op with
  | none, .len => (none, .ret (.num 0))
  | none, .clear seed => (some (Skl.new seed), .ret .unit)
  | none, _ => (none, .panic)
  | some w, .set k v => after (some w) _ ((Skl.set w k v).map fun w' => (some w', .unit))
  | some w, .get k => after (some w) _ ((Skl.get w k).map fun r => (some w, .found r))
  | some w, .del k => after (some w) _ ((Skl.del w k).map fun r => (some r.1, .unit))
  | some w, .len => (some w, .ret (.num (Skl.len w)))
  | some w, .keys => after (some w) _ ((Skl.keys w).map fun r => (some w, .keys r))
  | some w, .values => after (some w) _ ((Skl.values w).map fun r => (some w, .vals r))
  | some w, .clear seed => (some (Skl.clear w seed), .ret .unit)

def sklRun (s : Smap? K V) : List (MOp K V) → List (Outcome (MRes K V))
  | [] => []
  | op :: ops => (sklStep s op).2 :: sklRun (sklStep s op).1 ops

/-- An `OrdMap` (ordmapx.go:8-11) that was not made by `New`: its map, nil or not, and a nil
`*SkipListMap`. (One made by `New` is `Verif.Ord.OrdMap`.) -/
structure ZOrd (K V : Type) where
  m : Option (K → Option V)

/-- The zero `OrdMap`. -/
def ordZero : ZOrd K V := ⟨none⟩

/-- `m.m[key]`; a nil map has no keys. -/
def ZOrd.find (o : ZOrd K V) (k : K) : Option V :=
  match o.m with
  | none => none
  | some m => m k

/-- The methods of `OrdMap` (ordmapx.go:20-63) through a nil `*SkipListMap`: `Len`, `Set`, `Del`,
`Clear`, `Keys` of it panic, and so does the first `Next` of its iterator. `Set` of a key that is
there already would reach the map (ordmapx.go:30-33); `Clear` has made a map by the time it
panics (ordmapx.go:44-45). -/
def ordStep (o : ZOrd K V) : MOp K V → ZOrd K V × Outcome (MRes K V)
  | .len => (o, .panic)
  | .get k => (o, .ret (.found (o.find k)))
  | .set k v => match o.m with
    | none => (o, .panic)
    | some m => if (m k).isSome then (⟨some (Ord.assign m k v)⟩, .ret .unit) else (o, .panic)
  | .del k => if (o.find k).isSome then (o, .panic) else (o, .ret .unit)
  | .clear _ => (⟨some fun _ => none⟩, .panic)
  | .keys => (o, .panic)
  | .values => (o, .panic)

def ordRun (o : ZOrd K V) : List (MOp K V) → List (Outcome (MRes K V))
  | [] => []
  | op :: ops => (ordStep o op).2 :: ordRun (ordStep o op).1 ops

/-- The same methods on a map that was made (`Verif.Ord`). -/
def ordNewStep (o : Ord.OrdMap K V) (op : MOp K V) : Ord.OrdMap K V × Outcome (MRes K V) :=
  match op with
  | .set k v => after o _ ((Ord.set o k v).map fun o' => (o', .unit))
  | .get k => (o, .ret (.found (Ord.get o k)))
  | .del k => after o _ ((Ord.del o k).map fun o' => (o', .unit))
  | .len => (o, .ret (.num (Ord.len o)))
  | .keys => after o _ ((Ord.keys o).map fun r => (o, .keys r))
  | .values => after o _ ((Ord.values o).map fun r => (o, .vals r))
  | .clear seed => (Ord.clear o seed, .ret .unit)

def ordNewRun (o : Ord.OrdMap K V) : List (MOp K V) → List (Outcome (MRes K V))
  | [] => []
  | op :: ops => (ordNewStep o op).2 :: ordNewRun (ordNewStep o op).1 ops
end skl

end Verif.ZeroVal
