import Verif.Conc.Lin
import Verif.Ring.Model
/-!
# The bounded queue two goroutines see
-/
namespace Verif.RingPair
open Verif.Conc
open Verif.Ring (Op Res)

variable {T : Type}

/-- What the calls do to a queue with room for `n` elements, front first. -/
inductive Does (n : Nat) : List T → Op T → Res T → List T → Prop
  | put {l v} : l.length < n → Does n l (.enqueue v) (.bool true) (l ++ [v])
  | refuse {l v} : l.length = n → Does n l (.enqueue v) (.bool false) l
  | take {x l} : Does n (x :: l) .dequeue (.val x) l
  | nothing : Does n [] .dequeue .none []
  | peek {x l} : Does n (x :: l) .peek (.val x) (x :: l)
  | peekNothing : Does n [] .peek .none []
  | empty {l} : Does n l .isEmpty (.bool (decide (l = []))) l
  | full {l} : Does n l .isFull (.bool (decide (l.length = n))) l

/-- The same with a count of the elements accepted in the queue's life: from the `n`-th on, a queue that is not full panics. -/
inductive Did (n : Nat) : Nat × List T → Op T → Res T → Nat × List T → Prop
  | put {a l v} : a < n → Did n (a, l) (.enqueue v) (.bool true) (a + 1, l ++ [v])
  | refuse {a l v} : l.length = n → Did n (a, l) (.enqueue v) (.bool false) (a, l)
  | panic {l v} : l.length ≠ n → Did n (n, l) (.enqueue v) .panic (n, l)
  | other {a l c r l'} : (∀ v, c ≠ .enqueue v) → Does n l c r l' → Did n (a, l) c r (a, l')

def queue (T : Type) (n : Nat) : Obj (List T) (Op T) (Res T) := ⟨[], Does n⟩

def worn (T : Type) (n : Nat) : Obj (Nat × List T) (Op T) (Res T) := ⟨(0, []), Did n⟩

/-- The elements put in by the calls of a sequence, in that order. -/
def puts (S : List (Nat × Op T × Res T)) : List T := S.filterMap fun
  | (_, .enqueue v, .bool true) => some v
  | _ => none

/-- The elements taken out, in that order. -/
def takes (S : List (Nat × Op T × Res T)) : List T := S.filterMap fun
  | (_, .dequeue, .val v) => some v
  | _ => none

/-- The number of calls of `Enqueue` made. -/
def offers (h : List (Event (Op T) (Res T))) : Nat := h.countP fun
  | .inv _ (.enqueue _) => true
  | _ => false

end Verif.RingPair
