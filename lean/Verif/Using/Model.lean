import Verif.Prelude
/-!
# Model of `iox/usingx/using.go`

Functions have effects on a world `W` and return or panic. Go runs a deferred function also when the body
panics; the panic goes on after it, unless the deferred function panics itself, which replaces it.
-/
namespace Verif.Using

variable {W E P α : Type}

/-- What a call does: the world after it, and its result or the value it panicked with. -/
abbrev Eff (W P α : Type) := W → Except P α × W

/-- using.go:11-15, the loop over the closers. -/
def closeLoop (cs : List (Eff W P (Option E))) (errs : List E) : Eff W P (List E) := fun w =>
  match cs with
  | [] => (.ok errs, w)
  | c :: cs =>
    match c w with
    | (.error p, w) => (.error p, w)
    | (.ok none, w) => closeLoop cs errs w
    | (.ok (some e), w) => closeLoop cs (errs ++ [e]) w

/-- using.go:7-23. The result is a slice: `none` is nil. -/
def close (cs : List (Eff W P (Option E))) (f : Eff W P Unit) : Eff W P (Option (List E)) := fun w =>
  match f w with
  | (r, w) =>
    match closeLoop cs [] w with
    | (.error p, w) => (.error p, w)
    | (.ok errs, w) =>
      match r with
      | .error p => (.error p, w)
      | .ok () => (.ok (if errs.length > 0 then some errs else none), w)

end Verif.Using
