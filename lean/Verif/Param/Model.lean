import Verif.Prelude
/-!
# Model of `configx/optionalx/optionalx.go`

A pointer is an `Option` (`none`: nil). Functions may have effects on a world `W`.
-/
namespace Verif.Param

variable {W T R : Type}

/-- optionalx.go:4-7, the loop. -/
def loop (fs : List (W → Option T → Option T × W)) (w : W) (p : Option T) : Option T × W :=
  match fs with
  | [] => (p, w)
  | f :: fs =>
    let (p, w) := f w p
    loop fs w p

/-- optionalx.go:3-9. -/
def parameter (constructor : W → Option T → Option R × W) (fs : List (W → Option T → Option T × W)) (w : W) : Option R × W :=
  let (p, w) := loop fs w none
  constructor w p

end Verif.Param
