import Verif.Search.Model
/-!
# `algox/searchx/searchx.go` with the calls of the comparison

As `Verif.Search.Model`, but the comparison is a callback with a memory: what it answers may depend on
the calls before, and it may panic. A run is the outcome together with the calls made.
-/
namespace Verif.SearchCost
open Verif.Go Verif.Search

variable {T : Type}

/-- A comparison: from the calls it had so far (oldest first) and its arguments to its answer; `none` is
a panic. -/
abbrev Cmp (T : Type) := List (T × T) → T → T → Option Int

/-- The loop of `slices.BinarySearchFunc`, with the calls made so far. -/
def loop (cmp : Cmp T) (s : List T) (x : T) (i j : Nat) (c : List (T × T)) : Outcome Nat × List (T × T) :=
  if i < j then
    let h := (i + j) % 2 ^ 64 / 2
    if h < i ∨ j ≤ h then (.panic, c)  -- not reached for `j < 2^63`
    else
      match s[h]? with
      | some v =>
        match cmp c v x with
        | some a => if a < 0 then loop cmp s x (h + 1) j (c ++ [(v, x)]) else loop cmp s x i h (c ++ [(v, x)])
        | none => (.panic, c ++ [(v, x)])
      | none => (.panic, c)
  else (.ret i, c)
termination_by j - i
decreasing_by all_goals omega

/-- searchx.go:20-22. -/
def searchCustom (s : List T) (x : T) (cmp : Cmp T) : Outcome (Nat × Bool) × List (T × T) :=
  match loop cmp s x 0 s.length [] with
  | (.ret i, c) =>
    match s[i]? with
    | some v =>
      match cmp c v x with
      | some a => (.ret (i, a == 0), c ++ [(v, x)])
      | none => (.panic, c ++ [(v, x)])
    | none => (.ret (i, false), c)
  | (.panic, c) => (.panic, c)
  | (.hang, c) => (.hang, c)

/-- searchx.go:8-18. -/
def search (lt : T → T → Bool) (s : List T) (x : T) : Outcome (Nat × Bool) × List (T × T) :=
  searchCustom s x (fun _ i j => some (if lt i j then -1 else if lt j i then 1 else 0))

end Verif.SearchCost
