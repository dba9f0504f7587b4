import Verif.SortX.Model
/-!
# Sorting by one key after another
-/
namespace Verif.SortKeys
open Verif.SortX

variable {T : Type}

/-- A program that calls `SortStableCustom` (sortx.go:48-50) once for each comparison, for the last one first. -/
def sortAll (S : StableSorter) (cmps : List (T → T → Bool)) (s : List T) : List T :=
  cmps.foldr (fun less t => sortStableCustom S t less) s

/-- The same program with `SortCustom` (sortx.go:44-46). -/
def sortAllUnstable (S : Sorter) (cmps : List (T → T → Bool)) (s : List T) : List T :=
  cmps.foldr (fun less t => sortCustom S t less) s

/-- The first comparison that tells two elements apart decides. -/
def lexLess : List (T → T → Bool) → T → T → Bool
  | [], _, _ => false
  | less :: cmps, a, b => if less a b then true else if less b a then false else lexLess cmps a b

/-- Neither is less. -/
def eqv (less : T → T → Bool) (x y : T) : Bool := !less x y && !less y x

end Verif.SortKeys
