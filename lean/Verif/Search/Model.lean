import Verif.Prelude
import Verif.Go.Basic
/-!
# Model of `algox/searchx/searchx.go`

The loop is that of `slices.BinarySearchFunc` of golang.org/x/exp; `int` has 64 bits. The type of the elements comes with its
operator `<`, which for floats is not an order (NaN).
-/
namespace Verif.Search
open Verif.Go

variable {T : Type}

/-- `x[i]` of a slice. -/
def index (s : List T) (i : Nat) : Outcome T :=
  match s[i]? with
  | some v => .ret v
  | none => .panic

/-- The loop of `slices.BinarySearchFunc`. `int(uint(i+j) >> 1)`: the sum may overflow an `int`, not a `uint`. -/
def loop (cmp : T → T → Int) (s : List T) (x : T) (i j : Nat) : Outcome Nat :=
  if i < j then
    let h := (i + j) % 2 ^ 64 / 2
    if h < i ∨ j ≤ h then .panic  -- not reached for `j < 2^63`; shown in the proofs
    else
      match index s h with
      | .ret v => if cmp v x < 0 then loop cmp s x (h + 1) j else loop cmp s x i h
      | .panic => .panic
      | .hang => .hang
  else .ret i
termination_by j - i
decreasing_by all_goals omega

/-- searchx.go:20-22. -/
def searchCustom (s : List T) (x : T) (cmp : T → T → Int) : Outcome (Nat × Bool) := do
  let i ← loop cmp s x 0 s.length
  if i < s.length then
    let v ← index s i
    .ret (i, cmp v x == 0)
  else .ret (i, false)

/-- searchx.go:8-18. -/
def search (lt : T → T → Bool) (s : List T) (x : T) : Outcome (Nat × Bool) :=
  searchCustom s x (fun i j => if lt i j then -1 else if lt j i then 1 else 0)

end Verif.Search
