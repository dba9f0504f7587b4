import Verif.Prelude
/-!
# Model of `iox/managerx/closex` (manager.go, types.go)

A closer is an effect on a world `W` that returns an error or nil (closers do not panic and do not call
their own manager). `Append` and `Close` hold the manager's mutex throughout, so a concurrent history is
some sequential one. The functions of default.go:5-13 are the methods of one manager that `New` makes at the start of the program. An error is a Go interface value; a `none` is the nil interface.
-/
namespace Verif.CloseMgr

/-- Errors: an `ErrorList`, or some other error, which may wrap another. -/
inductive Err where
  | list (es : List Err)
  | plain (id : Nat)
  | wrap (id : Nat) (e : Err)

/-- `errors.As` for the target type `ErrorList`: the first error in the chain of wrapped errors that has
that type (an `ErrorList` itself wraps nothing). -/
def asList : Err → Option (List Err)
  | .list es => some es
  | .plain _ => none
  | .wrap _ e => asList e

/-- types.go:23-30: `(nil, false)` is `none`. `errors.As` of a nil error is false. -/
def asErrs : Option Err → Option (List Err)
  | none => none
  | some e => asList e

variable {W : Type}

/-- manager.go:14-17. -/
structure Mgr (W : Type) where
  list : List (W → Option Err × W)

/-- manager.go:10-12. -/
def new : Mgr W := ⟨[]⟩

/-- manager.go:19-23. -/
def Mgr.append (m : Mgr W) (c : W → Option Err × W) : Mgr W := ⟨m.list ++ [c]⟩

/-- manager.go:31-37, the loop. -/
def closeLoop : List (W → Option Err × W) → List Err → W → List Err × W
  | [], errs, w => (errs, w)
  | c :: cs, errs, w =>
    match c w with
    | (none, w) => closeLoop cs errs w
    | (some e, w) => closeLoop cs (errs ++ [e]) w

/-- manager.go:25-40. The result of type `ErrorList` becomes an interface value in line 39. -/
def Mgr.close (m : Mgr W) (w : W) : Option Err × W :=
  let (errs, w) := closeLoop m.list [] w
  (some (.list errs), w)

/-- A history of calls. -/
inductive Op (W : Type) where
  | append (c : W → Option Err × W)
  | close

/-- Run a history: the manager, the world and the results of the `Close` calls. -/
def run : List (Op W) → Mgr W → W → List (Option Err) → Mgr W × W × List (Option Err)
  | [], m, w, rs => (m, w, rs)
  | .append c :: ops, m, w, rs => run ops (m.append c) w rs
  | .close :: ops, m, w, rs => run ops m (m.close w).2 (rs ++ [(m.close w).1])

end Verif.CloseMgr
