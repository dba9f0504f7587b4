/-!
# Shared Go semantics

What a Go call can do, 64-bit integer arithmetic and the `constraints.Ordered` operations.
-/
namespace Verif.Go

/-- What a Go call can do: return, panic, or never return (a loop that does not end, a channel
operation or a lock acquisition that blocks forever). -/
inductive Outcome (α : Type u) where
  | ret (a : α)
  | panic
  | hang
  deriving Repr, DecidableEq

namespace Outcome

/-- Run `f` on the result if there is one. -/
def bind {α : Type u} {β : Type v} : Outcome α → (α → Outcome β) → Outcome β
  | ret a, f => f a
  | panic, _ => panic
  | hang, _ => hang

def map {α : Type u} {β : Type v} (f : α → β) : Outcome α → Outcome β
  | ret a => ret (f a)
  | panic => panic
  | hang => hang

instance : Monad Outcome where
  pure := ret
  bind := bind

@[simp] theorem bind_ret (a : α) (f : α → Outcome β) : (ret a).bind f = f a := rfl
@[simp] theorem bind_panic (f : α → Outcome β) : (panic : Outcome α).bind f = panic := rfl
@[simp] theorem bind_hang (f : α → Outcome β) : (hang : Outcome α).bind f = hang := rfl
@[simp] theorem map_ret (a : α) (f : α → β) : (ret a).map f = ret (f a) := rfl
@[simp] theorem map_panic (f : α → β) : (panic : Outcome α).map f = panic := rfl
@[simp] theorem map_hang (f : α → β) : (hang : Outcome α).map f = hang := rfl
@[simp] theorem ret_inj (a b : α) : (ret a = ret b) = (a = b) := by simp

/-- The call returned normally. -/
def returns : Outcome α → Prop
  | ret _ => True
  | _ => False

end Outcome

/-- Go's 64-bit two's complement wrap-around of an arithmetic result. -/
def wrap64 (x : Int) : Int := (x + 2 ^ 63) % 2 ^ 64 - 2 ^ 63

/-- The range of Go's `int`/`int64`. -/
def InInt64 (x : Int) : Prop := -2 ^ 63 ≤ x ∧ x < 2 ^ 63

instance (x : Int) : Decidable (InInt64 x) := by unfold InInt64; infer_instance

theorem wrap64_of_in {x : Int} (h : InInt64 x) : wrap64 x = x := by
  unfold InInt64 at h; unfold wrap64; omega

theorem wrap64_in (x : Int) : InInt64 (wrap64 x) := by
  unfold InInt64 wrap64; omega

/-- The operations Go allows on a `constraints.Ordered` type: `<` and `==`. Floats are ordered in
this sense although NaN breaks the laws. -/
class GoOrdered (K : Type u) where
  lt : K → K → Bool
  eq : K → K → Bool

export GoOrdered (lt)

/-- The laws of a totally ordered key type: every integer type, strings, and floats without NaN. -/
class LawfulOrdered (K : Type u) [GoOrdered K] : Prop where
  eq_iff : ∀ a b : K, GoOrdered.eq a b = true ↔ a = b
  irrefl : ∀ a : K, GoOrdered.lt a a = false
  trans : ∀ a b c : K, GoOrdered.lt a b = true → GoOrdered.lt b c = true → GoOrdered.lt a c = true
  total : ∀ a b : K, GoOrdered.lt a b = true ∨ a = b ∨ GoOrdered.lt b a = true

instance : GoOrdered Int := ⟨fun a b => decide (a < b), fun a b => decide (a = b)⟩
instance : GoOrdered Nat := ⟨fun a b => decide (a < b), fun a b => decide (a = b)⟩

instance : LawfulOrdered Int where
  eq_iff := by intro a b; simp [GoOrdered.eq]
  irrefl := by intro a; simp [GoOrdered.lt]
  trans := by intro a b c; simp [GoOrdered.lt]; omega
  total := by intro a b; simp [GoOrdered.lt]; omega

instance : LawfulOrdered Nat where
  eq_iff := by intro a b; simp [GoOrdered.eq]
  irrefl := by intro a; simp [GoOrdered.lt]
  trans := by intro a b c; simp [GoOrdered.lt]; omega
  total := by intro a b; simp [GoOrdered.lt]; omega

/-- A float-like key type: numbers and NaN, with IEEE comparison (`NaN < x`, `x < NaN` and
`NaN == NaN` are all false). It is `Ordered` but not lawful. -/
inductive FloatKey where
  | num (n : Int)
  | nan
  deriving Repr, DecidableEq

instance : Inhabited FloatKey := ⟨.num 0⟩

instance : GoOrdered FloatKey where
  lt
    | .num a, .num b => decide (a < b)
    | _, _ => false
  eq
    | .num a, .num b => decide (a = b)
    | _, _ => false

end Verif.Go
