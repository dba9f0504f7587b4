import Verif.Prelude
/-!
# What the slice methods mean, on lists
-/
namespace Verif.Slicex

variable {T : Type}

/-- An index brought into `0..n`. -/
def bound (i : Int) (n : Nat) : Nat := (min (max i 0) (n : Int)).toNat

/-- The window `lo..hi` two indices name: both brought into `0..n`, the smaller first. -/
def lo (i j : Int) (n : Nat) : Nat := min (bound i n) (bound j n)
def hi (i j : Int) (n : Nat) : Nat := max (bound i n) (bound j n)

/-- Replace the window by `v`. -/
def spliceSpec (l : List T) (i j : Int) (v : List T) : List T :=
  l.take (lo i j l.length) ++ v ++ l.drop (hi i j l.length)

/-- Remove element `i` if there is one. -/
def deleteSpec (l : List T) (i : Int) : List T := if 0 ≤ i then l.eraseIdx i.toNat else l

/-- The pieces of `l` of the given sizes, and the remainder if any. -/
def pieces : List T → List Nat → List (List T)
  | l, [] => if l.isEmpty then [] else [l]
  | l, n :: ns => l.take n :: pieces (l.drop n) ns

/-- `l` `n` times. -/
def timesSpec (l : List T) : Nat → List T
  | 0 => []
  | n + 1 => l ++ timesSpec l n

/-- Strings with a separator between neighbours. -/
def sepBy (sep : String) : List String → String
  | [] => ""
  | [x] => x
  | x :: y :: xs => x ++ sep ++ sepBy sep (y :: xs)

end Verif.Slicex
