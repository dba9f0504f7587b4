import Verif.Prelude
import Verif.Go.Basic
/-!
# Model of `dsx/setx/bitsetx/bitsetx.go`

The word is a bit vector of any width. A panic in the middle of an index list leaves the bits
changed so far; the methods therefore return the word and whether they panicked.
-/
namespace Verif.BitSet
open Verif.Go

/-- `1 << i` in the word type: a negative count panics, one at or above the width gives 0. -/
def bit (w : Nat) (i : Int) : Outcome (BitVec w) := if i < 0 then .panic else .ret (1#w <<< i.toNat)

/-- bitsetx.go:11-15 `Set`. -/
def set {w : Nat} : BitVec w → List Int → BitVec w × Outcome Unit
  | d, [] => (d, .ret ())
  | d, i :: is => match bit w i with
    | .ret b => set (d ||| b) is
    | _ => (d, .panic)

/-- bitsetx.go:17-21 `Clear`. -/
def clear {w : Nat} : BitVec w → List Int → BitVec w × Outcome Unit
  | d, [] => (d, .ret ())
  | d, i :: is => match bit w i with
    | .ret b => clear (d &&& ~~~b) is
    | _ => (d, .panic)

/-- bitsetx.go:23-27 `Toggle`. -/
def toggle {w : Nat} : BitVec w → List Int → BitVec w × Outcome Unit
  | d, [] => (d, .ret ())
  | d, i :: is => match bit w i with
    | .ret b => toggle (d ^^^ b) is
    | _ => (d, .panic)

/-- bitsetx.go:31-33, the loop of `Test`; `||` does not evaluate the shift once `t` holds. -/
def testLoop {w : Nat} (d : BitVec w) : Bool → List Int → Outcome Bool
  | t, [] => .ret t
  | true, _ :: is => testLoop d true is
  | false, i :: is => match bit w i with
    | .ret b => testLoop d (d &&& b != 0#w) is
    | _ => .panic

/-- bitsetx.go:29-35 `Test`. -/
def test {w : Nat} (d : BitVec w) (is : List Int) : Outcome Bool := testLoop d false is

/-- bitsetx.go:37-39 `IsEmpty`. -/
def isEmpty {w : Nat} (d : BitVec w) : Bool := d == 0#w

/-- bitsetx.go:41-43 `IsFull`. -/
def isFull {w : Nat} (d : BitVec w) : Bool := d == ~~~0#w

/-- bitsetx.go:45-47 `ClearAll`. -/
def clearAll {w : Nat} (_ : BitVec w) : BitVec w := 0#w

/-- bitsetx.go:49-51 `ToggleAll`. -/
def toggleAll {w : Nat} (d : BitVec w) : BitVec w := ~~~d

/-- bitsetx.go:53-55 `SetAll`. -/
def setAll {w : Nat} (_ : BitVec w) : BitVec w := ~~~0#w

end Verif.BitSet
