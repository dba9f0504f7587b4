import Verif.Go.Basic
/-!
# Model of `algox/sortx/sortx.go`

`slices.SortFunc` and `slices.SortStableFunc` of golang.org/x/exp are any routines that do what their documentation says; the
loop of `slices.IsSortedFunc` is modelled. The type of the elements comes with its operator `<`.
-/
namespace Verif.SortX
open Verif.Go

variable {T : Type}

/-- "less must be a strict weak ordering", the documentation of `slices.SortFunc`. -/
structure StrictWeak (less : T → T → Bool) : Prop where
  irrefl : ∀ a, less a a = false
  trans : ∀ a b c, less a b = true → less b c = true → less a c = true
  incomp : ∀ a b c, less a b = false → less b a = false → less b c = false → less c b = false → less a c = false ∧ less c a = false

/-- A routine that sorts in place: the new content of the slice. It only moves elements, and puts them in order when
`less` is a strict weak ordering. -/
structure Sorter where
  sort : {T : Type} → (T → T → Bool) → List T → List T
  perm : ∀ {T : Type} (less : T → T → Bool) (s : List T), (sort less s).Perm s
  sorted : ∀ {T : Type} (less : T → T → Bool) (s : List T), StrictWeak less → (sort less s).Pairwise (fun a b => less b a = false)

/-- A routine that also keeps the order of elements that are neither less nor greater. -/
structure StableSorter extends Sorter where
  stable : ∀ {T : Type} (less : T → T → Bool) (s : List T) (x : T), StrictWeak less →
    (sort less s).filter (fun y => !less x y && !less y x) = s.filter (fun y => !less x y && !less y x)

/-- sortx.go:44-46. -/
def sortCustom (S : Sorter) (s : List T) (less : T → T → Bool) : List T := S.sort less s

/-- sortx.go:48-50. -/
def sortStableCustom (S : StableSorter) (s : List T) (less : T → T → Bool) : List T := S.sort less s

/-- The loop of `slices.IsSortedFunc`, which goes from the end to the front; `i` elements are left. -/
def isSortedLoop (less : T → T → Bool) (s : List T) : Nat → Outcome Bool
  | 0 => .ret true
  | i + 1 =>
    if i > 0 then
      match s[i]?, s[i - 1]? with
      | some a, some b => if less a b then .ret false else isSortedLoop less s i
      | _, _ => .panic  -- index out of range
    else .ret true

/-- sortx.go:52-54. -/
def isSortedCustom (s : List T) (less : T → T → Bool) : Outcome Bool := isSortedLoop less s s.length

/-- sortx.go:8-12. `reverse` is not used. -/
def sort (S : Sorter) (lt : T → T → Bool) (s : List T) (_reverse : Bool) : List T := sortCustom S s (fun i j => lt i j)

/-- sortx.go:14-18. -/
def sortReverse (S : Sorter) (lt : T → T → Bool) (s : List T) : List T := sortCustom S s (fun i j => lt j i)

/-- sortx.go:20-24. -/
def sortStable (S : StableSorter) (lt : T → T → Bool) (s : List T) : List T := sortStableCustom S s (fun i j => lt i j)

/-- sortx.go:26-30. -/
def sortStableReverse (S : StableSorter) (lt : T → T → Bool) (s : List T) : List T := sortStableCustom S s (fun i j => lt j i)

/-- sortx.go:32-36. -/
def isSorted (lt : T → T → Bool) (s : List T) : Outcome Bool := isSortedCustom s (fun i j => lt i j)

/-- sortx.go:38-42. -/
def isSortedReverse (lt : T → T → Bool) (s : List T) : Outcome Bool := isSortedCustom s (fun i j => lt j i)

end Verif.SortX
