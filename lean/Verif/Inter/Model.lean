import Verif.Prelude
import Verif.Go.Basic
/-!
# Model of `timex/intersectionx/intersectionx.go`

`sort.Sort` is unstable: all that is assumed is that it leaves a permutation sorted by `Less`
(`SortedTo`). For at most 12 elements, i.e. four intervals, Go's `sort.Sort` is an insertion sort, which
is modelled too (`insertionSort`) for concrete runs. Lists are shorter than 2^63, so the counters do not
overflow; the bounds of the intervals wrap.
-/
namespace Verif.Inter
open Verif.Go

/-- intersectionx.go:8-11 `iTuple`. -/
structure Tuple where
  off : Int
  typ : Int
  deriving DecidableEq

/-- intersectionx.go:80-83 `Interval`. -/
structure Interval where
  off : Int
  band : Int
  deriving DecidableEq

/-- intersectionx.go:19-21 `Less`. -/
def less (a b : Tuple) : Bool := decide (a.off < b.off)

/-- What `sort.Sort` guarantees (intersectionx.go:27-29, 101). -/
def SortedTo (l s : List Tuple) : Prop := s.Perm l ∧ s.Pairwise fun a b => less b a = false

/-- sort.go `insertionSort`, the inner loop: the new element moves left past greater ones (the part
already sorted is held in reverse). -/
def insertBack (x : Tuple) : List Tuple → List Tuple
  | [] => [x]
  | y :: ys => if less x y then y :: insertBack x ys else x :: y :: ys

/-- sort.go `insertionSort`. -/
def insertionSort (l : List Tuple) : List Tuple := (l.foldl (fun acc x => insertBack x acc) []).reverse

/-- intersectionx.go:40-50 (`sgn = -1`, in order) and 54-64 (`sgn = 1`, from the back): the bound found,
if any, and `Mid`. -/
def scan (sgn need : Int) : List Tuple → Int → Int → Option Int × Int
  | [], _, mid => (none, mid)
  | t :: ts, en, mid =>
    let en := en + sgn * t.typ
    if en ≥ need then (some t.off, mid)
    else scan sgn need ts en (if t.typ = 0 then mid + 1 else mid)

/-- intersectionx.go:37-74, the loop over `F`, with the number of rounds left (`F` goes up to `M/2`, so
`F = M/2 - rounds`); `lower` and `upper` keep their values from one round to the next. -/
def search (s : List Tuple) (m : Nat) : Nat → Int → Int → Int × Int × Bool
  | 0, lower, upper => (lower, upper, false)
  | k + 1, lower, upper =>
    let f := m / 2 - (k + 1)
    let up := scan (-1) (m - f) s 0 0
    let lower := up.1.getD lower
    let down := scan 1 (m - f) s.reverse 0 up.2
    let upper := down.1.getD upper
    if lower ≤ upper ∧ down.2 ≤ f then (lower, upper, true)
    else search s m k lower upper

/-- intersectionx.go:33-78 `intersection`. -/
def intersection (s : List Tuple) : Int × Int × Bool := search s (s.length / 3) (s.length / 3 / 2) 0 0

/-- intersectionx.go:92-100: the tuples of the intervals. -/
def tuples : List Interval → List Tuple
  | [] => []
  | i :: is => ⟨wrap64 (i.off - i.band), -1⟩ :: ⟨i.off, 0⟩ :: ⟨wrap64 (i.off + i.band), 1⟩ :: tuples is

/-- intersectionx.go:85-103 `Intersection`: `r` is a possible result. -/
inductive Intersection : List Interval → Int × Int × Bool → Prop where
  | one (i) : Intersection [i] (wrap64 (i.off - i.band), wrap64 (i.off + i.band), true)
  | many (is s) : is.length ≠ 1 → SortedTo (tuples is) s → Intersection is (intersection s)

/-- `Intersection` as it runs for up to four intervals. -/
def run (is : List Interval) : Int × Int × Bool :=
  match is with
  | [i] => (wrap64 (i.off - i.band), wrap64 (i.off + i.band), true)
  | is => intersection (insertionSort (tuples is))

end Verif.Inter
