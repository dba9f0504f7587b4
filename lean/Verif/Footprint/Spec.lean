import Verif.Retain.Spec
/-!
# How many nodes a container keeps in memory

A node is kept if it can be reached from the fields of the container by following pointers (`Retain.Reachable`). As there, the nodes
in a `sync.Pool` do not count: the collector empties pools.
-/
namespace Verif.Footprint
open Verif.Go Verif.Retain

/-- Exactly `n` addresses are such. -/
def Exactly (n : Nat) (p : Nat → Prop) : Prop := ∃ l : List Nat, l.Nodup ∧ l.length = n ∧ ∀ a, a ∈ l ↔ p a

/-- At least `n` addresses are such. -/
def AtLeast (n : Nat) (p : Nat → Prop) : Prop := ∃ l : List Nat, l.Nodup ∧ l.length = n ∧ ∀ a ∈ l, p a

/-- The nodes of a skip-list map, the two marks included. -/
def SklNode {K V : Type} (w : Skl.World K V) : Nat → Prop :=
  Reachable (fun a => a = w.skl.head ∨ a = w.skl.tail) (fun a b => ∃ i, (w.heap.mem a).next i = some b)

open Linked in
/-- Reachable through the `next` pointers of list nodes. -/
def NextNode {T : Type} (m : Mem (Node T)) (roots : List (Option Nat)) : Nat → Prop :=
  Reachable (fun a => some a ∈ roots) (fun a b => (m.node a).next = some b)

/-- The nodes of a linked stack. -/
def StackNode {T : Type} (s : Linked.Stack.Stack T) : Nat → Prop := NextNode s.mem [s.head]

/-- The nodes of a linked queue. -/
def QueueNode {T : Type} (q : Linked.Queue.Queue T) : Nat → Prop := NextNode q.mem [q.head, q.tail]

/-- The nodes of a linked list. -/
def ListNode {T : Type} (l : Linked.LList.LL T) : Nat → Prop := NextNode l.mem [l.head, l.tail]

/-- The nodes of a deque; each has room for 64 elements. -/
def DequeNode {T : Type} (d : Linked.Deque.Deque T) : Nat → Prop :=
  Reachable (fun a => some a ∈ [d.head, d.tail]) (fun a b => (d.mem.node a).next = some b ∨ (d.mem.node a).prev = some b)

/-- Every node of the deque is a new one: the pool never hands out a node for the second time. -/
def Fresh {T : Type} : Linked.Deque.Op T → Prop
  | .pushFront _ c => c = none
  | .pushBack _ c => c = none
  | _ => True

section
variable {T : Type} [Inhabited T]

/-- At no time of the history more than `n` elements are in the list. -/
def ListMax (n : Nat) (ops : List (Linked.LList.Op T)) : Prop := ∀ pre, pre <+: ops → (listHolds pre).length ≤ n

/-- At no time of the history more than `n` elements are in the deque. -/
def DequeMax (n : Nat) (ops : List (Linked.Deque.Op T)) : Prop := ∀ pre, pre <+: ops → (dequeHolds pre).length ≤ n

end

end Verif.Footprint
