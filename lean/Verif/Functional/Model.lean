import Verif.Prelude
import Verif.Go.Basic
/-!
# Models of `functionalx/optionx` and `functionalx/resultx`

Callbacks act on the rest of the program's state `σ` and may panic or never return.
-/
namespace Verif.Functional
open Verif.Go

variable {T E σ : Type} [Inhabited T] [Inhabited E]

/-- optionx.go:3-6. -/
structure Option' (T : Type) where
  data : T
  exist : Bool

/-- optionx.go:8-10 `Some`. -/
def some' (x : T) : Option' T := ⟨x, true⟩

/-- optionx.go:12-14 `None`: `data` is the zero value. -/
def none' : Option' T := ⟨default, false⟩

/-- optionx.go:16-21 `Match`. -/
def Option'.match' (t : Option' T) (f : T → σ → Outcome (σ × T × E)) (g : σ → Outcome (σ × T × E)) (x : σ) :
    Outcome (σ × T × E) :=
  if t.exist then f t.data x else g x

/-- resultx.go:3-7. -/
structure Result (T E : Type) where
  data : T
  error : E
  ok : Bool

/-- resultx.go:9-11 `Ok`. -/
def ok (x : T) : Result T E := ⟨x, default, true⟩

/-- resultx.go:13-15 `Err`. -/
def err (e : E) : Result T E := ⟨default, e, false⟩

/-- resultx.go:17-22 `Match`. -/
def Result.match' (t : Result T E) (f : T → σ → Outcome (σ × T × E)) (g : E → σ → Outcome (σ × T × E)) (x : σ) :
    Outcome (σ × T × E) :=
  if t.ok then f t.data x else g t.error x

end Verif.Functional
