import Verif.Skl.Model
import Verif.Linked.Stack
import Verif.Linked.Queue
import Verif.Linked.List
import Verif.Linked.Deque
import Verif.Ring.Model
import Verif.Slicex.Model
/-!
# What a container keeps in memory

The garbage collector keeps what can be reached by following pointers. The nodes in a `sync.Pool` are not counted: the
collector empties pools.
-/
namespace Verif.Retain
open Verif.Go

/-- What can be reached from the roots by following pointers. -/
inductive Reachable {A : Type} (root : A → Prop) (points : A → A → Prop) : A → Prop where
  | root {a : A} : root a → Reachable root points a
  | follow {a b : A} : Reachable root points a → points a b → Reachable root points b

/-- A skip-list map keeps this key and value: they are in a node reachable from its two fields `head` and `tail`. -/
def SklKeeps {K V : Type} (w : Skl.World K V) (k : K) (v : V) : Prop :=
  ∃ a, Reachable (fun a => a = w.skl.head ∨ a = w.skl.tail) (fun a b => ∃ i, (w.heap.mem a).next i = some b) a ∧
    (w.heap.mem a).key = k ∧ (w.heap.mem a).value = v

open Linked in
/-- Reachable through the `next` pointers of list nodes. -/
def Keeps {T : Type} (m : Mem (Node T)) (roots : List (Option Nat)) (v : T) : Prop :=
  ∃ a, Reachable (fun a => some a ∈ roots) (fun a b => (m.node a).next = some b) a ∧ (m.node a).data = v

/-- A linked stack keeps this value. -/
def StackKeeps {T : Type} (s : Linked.Stack.Stack T) (v : T) : Prop := Keeps s.mem [s.head] v

/-- A linked queue keeps this value. -/
def QueueKeeps {T : Type} (q : Linked.Queue.Queue T) (v : T) : Prop := Keeps q.mem [q.head, q.tail] v

/-- A linked list keeps this value. -/
def ListKeeps {T : Type} (l : Linked.LList.LL T) (v : T) : Prop := Keeps l.mem [l.head, l.tail] v

/-- A deque keeps this value: it is in the array of a node reachable from its fields `head` and `tail`. -/
def DequeKeeps {T : Type} (d : Linked.Deque.Deque T) (v : T) : Prop :=
  ∃ a, Reachable (fun a => some a ∈ [d.head, d.tail])
      (fun a b => (d.mem.node a).next = some b ∨ (d.mem.node a).prev = some b) a ∧
    ∃ i, 0 ≤ i ∧ i < 64 ∧ (d.mem.node a).data i = v

/-- A ring keeps this value: it is in its array. -/
def RingKeeps {T : Type} (r : Ring.Ring T) (v : T) : Prop := v ∈ r.data

/-- A slice keeps this value: it is in its array, in front of, in or behind the slice. -/
def SliceKeeps {T : Type} (h : Hp T) (s : Sl) (v : T) : Prop := ∃ i, i < s.off + s.cap ∧ h.mem s.arr i = v

section
variable {T : Type} [Inhabited T]

/-- The state of a container after a history, and what should be in it. -/
def stackAfter (ops : List (Linked.Stack.Op T)) : Linked.Stack.Stack T :=
  ops.foldl (fun s op => (Linked.Stack.step s op).1) Linked.Stack.new
def stackHolds (ops : List (Linked.Stack.Op T)) : List T :=
  ops.foldl (fun l op => (Linked.Stack.specStep l op).1) []

def queueAfter (ops : List (Linked.Queue.Op T)) : Linked.Queue.Queue T :=
  ops.foldl (fun s op => (Linked.Queue.step s op).1) Linked.Queue.new
def queueHolds (ops : List (Linked.Queue.Op T)) : List T :=
  ops.foldl (fun l op => (Linked.Queue.specStep l op).1) []

def listAfter (ops : List (Linked.LList.Op T)) : Linked.LList.LL T :=
  ops.foldl (fun s op => (Linked.LList.step s op).1) Linked.LList.new
def listHolds (ops : List (Linked.LList.Op T)) : List T :=
  ops.foldl (fun l op => (Linked.LList.specStep l op).1) []

def dequeAfter (ops : List (Linked.Deque.Op T)) : Linked.Deque.Deque T :=
  ops.foldl (fun s op => (Linked.Deque.step s op).1) Linked.Deque.new
def dequeHolds (ops : List (Linked.Deque.Op T)) : List T :=
  ops.foldl (fun l op => (Linked.Deque.specStep l op).1) []

def ringAfter (r : Ring.Ring T) (ops : List (Ring.Op T)) : Ring.Ring T := ops.foldl (fun r op => (Ring.step r op).1) r
def ringHolds (n : Nat) (ops : List (Ring.Op T)) : List T :=
  ops.foldl (fun l op => (Ring.specStep n l op).1) []

/-- No call of the history changes what the last element of the list is by removing it or by inserting behind it. -/
def EndStays (l : List T) : List (Linked.LList.Op T) → Prop
  | [] => True
  | op :: ops => Linked.LList.stays l op = true ∧ EndStays (Linked.LList.specStep l op).1 ops

end

end Verif.Retain
