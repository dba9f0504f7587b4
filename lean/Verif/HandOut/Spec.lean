import Verif.HandOut.Model
/-!
# Handing every element on exactly once
-/
namespace Verif.HandOut
open Verif.Conc Verif.Linked Verif.Dsx

variable {T C : Type}

/-- What a call is for: putting an element in, taking one out, or looking. -/
inductive Kind (T : Type) where
  | put (v : T)
  | take
  | look

def stackKind : SOp T → Kind T
  | .push v => .put v
  | .pop => .take
  | _ => .look

def queueKind : QOp T → Kind T
  | .enqueue v => .put v
  | .dequeue => .take
  | _ => .look

/-- Call number `p` was made to put `v` in, and if it has returned then with `true`. -/
def Puts (kind : C → Kind T) (h : List (Event C (Res T))) (p : Nat) (v : T) : Prop :=
  (∃ c, kind c = .put v ∧ .inv p c ∈ h) ∧ ∀ r, .ret p r ∈ h → r = .bool true

/-- Call number `q` is one that takes. -/
def Takes (kind : C → Kind T) (h : List (Event C (Res T))) (q : Nat) : Prop := ∃ c, kind c = .take ∧ .inv q c ∈ h

/-- `M q p`: call `q` takes the element that call `p` put in. -/
structure Accounts (kind : C → Kind T) (h : List (Event C (Res T))) (M : Nat → Nat → Prop) : Prop where
  /-- it gives what `p` put in, once it returns -/
  gives : ∀ q p, M q p → Takes kind h q ∧ ∃ v, Puts kind h p v ∧ ∀ r, .ret q r ∈ h → r = .val v
  /-- and not before that was put in -/
  after : ∀ q p, M q p → ∀ r c, ¬ Before h (.ret q r) (.inv p c)
  /-- a call takes one element -/
  single : ∀ q p p', M q p → M q p' → p = p'
  /-- and no element is taken by two calls -/
  once : ∀ q q' p, M q p → M q' p → q = q'
  /-- nothing is handed out that was not put in -/
  sound : ∀ q v, Takes kind h q → .ret q (.val v) ∈ h → ∃ p, M q p
  /-- and when a call finds nothing to take, everything put in by calls that had returned before it started has been taken -/
  complete : ∀ e, Takes kind h e → .ret e .none ∈ h → ∀ p v, Puts kind h p v →
    (∃ r c, Before h (.ret p r) (.inv e c)) → ∃ q, M q p

/-- A stack, top first. -/
def lifo (T : Type) : Obj (List T) (SOp T) (Res T) := ⟨[], fun l c r l' =>
  match c with
  | .push v => r = .bool true ∧ l' = v :: l
  | .pop => r = .none ∧ l = [] ∧ l' = [] ∨ ∃ x, r = .val x ∧ l = x :: l'
  | .peek => l' = l ∧ (r = .none ∧ l = [] ∨ ∃ x rest, r = .val x ∧ l = x :: rest)
  | .len => l' = l ∧ r = .num l.length⟩

/-- A queue with room for `n` elements, front first. -/
def fifo (T : Type) (n : Nat) : Obj (List T) (QOp T) (Res T) := ⟨[], fun l c r l' =>
  match c with
  | .enqueue v => r = .bool true ∧ l.length < n ∧ l' = l ++ [v] ∨ r = .bool false ∧ l.length = n ∧ l' = l
  | .dequeue => r = .none ∧ l = [] ∧ l' = [] ∨ ∃ x, r = .val x ∧ l = x :: l'
  | .peek => l' = l ∧ (r = .none ∧ l = [] ∨ ∃ x rest, r = .val x ∧ l = x :: rest)
  | .isEmpty => l' = l ∧ (r = .bool true ∧ l = [] ∨ r = .bool false ∧ l ≠ [])⟩

/-- What the linked stack is: a stack whose `Pop` shows the element below the one it removes, and panics when there is none. -/
def lifoBelow (T : Type) : Obj (List T) (SOp T) (Res T) := ⟨[], fun l c r l' =>
  match c with
  | .pop => r = .none ∧ l = [] ∧ l' = [] ∨ (∃ x, r = .panic ∧ l = [x] ∧ l' = []) ∨ ∃ x y rest, r = .val y ∧ l = x :: y :: rest ∧ l' = y :: rest
  | c => (lifo T).step l c r l'⟩

/-- The number of calls made to put something in. -/
def putsIn (kind : C → Kind T) : List (Event C (Res T)) → Nat
  | [] => 0
  | .inv _ c :: h => (match kind c with | .put _ => 1 | _ => 0) + putsIn kind h
  | .ret _ _ :: h => putsIn kind h

/-- The full claim, for the four implementations. -/
def C158_full (T : Type) [Inhabited T] : Prop :=
  (∀ (h : Go.Hp T) s, RW.Reach (sliceStack h) s → ∃ M, Accounts stackKind s.hist M) ∧
  (∀ s, RW.Reach (linkedStack T) s → ∃ M, Accounts stackKind s.hist M) ∧
  (∀ s, RW.Reach (linkedQueue T) s → ∃ M, Accounts queueKind s.hist M) ∧
  (∀ (n : Int) (q : Ring.Ring T), 0 < n → n < 2 ^ 63 - 1 → Ring.new n = .ret (some q) →
    ∀ s, RW.Reach (ringQueue q) s → ∃ M, Accounts queueKind s.hist M)

end Verif.HandOut
