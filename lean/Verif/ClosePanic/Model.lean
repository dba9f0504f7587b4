import Verif.Prelude
/-!
# Model of `iox/managerx/closex/manager.go` and `iox/usingx/using.go` with closers that panic

A closer has an effect on a world `W`; it returns an error or nil, or panics with a value of `P` (a nil closer is
one that panics). A panic that is not recovered runs the deferred functions and reaches the caller; here callers
recover and go on, so the state after a panic matters. The mutex of the manager is a flag: in sequential use a
`Lock` of a locked mutex waits for ever.
-/
namespace Verif.ClosePanic

variable {W E P : Type}

/-- What the `Close` of a closer does: its result or the value it panicked with, and the world after it. -/
abbrev Closer (W P E : Type) := W → Except P (Option E) × W

/-- What a call shows to a caller that recovers. -/
inductive Res (P α : Type) where
  | ret (a : α)
  | panic (p : P)
  | hang
  deriving DecidableEq

/-- manager.go:14-17. -/
structure Mgr (W P E : Type) where
  locked : Bool
  list : List (Closer W P E)

/-- manager.go:10-12. -/
def new : Mgr W P E := ⟨false, []⟩

/-- manager.go:19-23. -/
def Mgr.append (m : Mgr W P E) (c : Closer W P E) : Res P Unit × Mgr W P E :=
  if m.locked then (.hang, m) else (.ret (), { m with list := m.list ++ [c] })

/-- manager.go:31-37 and using.go:11-15, the loop: a panic leaves it. -/
def closeLoop : List (Closer W P E) → List E → W → Except P (List E) × W
  | [], errs, w => (.ok errs, w)
  | c :: cs, errs, w =>
    match c w with
    | (.error p, w) => (.error p, w)
    | (.ok none, w) => closeLoop cs errs w
    | (.ok (some e), w) => closeLoop cs (errs ++ [e]) w

/-- manager.go:25-40. The deferred unlock of line 27 runs in both cases. -/
def Mgr.close (m : Mgr W P E) (w : W) : Res P (List E) × Mgr W P E × W :=
  if m.locked then (.hang, m, w)
  else
    let m := { m with locked := true }       -- line 26
    match closeLoop m.list [] w with
    | (.ok errs, w) => (.ret errs, { m with locked := false }, w)
    | (.error p, w) => (.panic p, { m with locked := false }, w)

/-- A history of calls. -/
inductive Op (W P E : Type) where
  | append (c : Closer W P E)
  | close

/-- What each call of a history showed. -/
inductive Shown (P E : Type) where
  | appended (r : Res P Unit)
  | closed (r : Res P (List E))

/-- Run a history. -/
def run : List (Op W P E) → Mgr W P E → W → List (Shown P E) × Mgr W P E × W
  | [], m, w => ([], m, w)
  | .append c :: ops, m, w =>
    let r := m.append c
    let rest := run ops r.2 w
    (.appended r.1 :: rest.1, rest.2)
  | .close :: ops, m, w =>
    let r := m.close w
    let rest := run ops r.2.1 r.2.2
    (.closed r.1 :: rest.1, rest.2)

/-- using.go:7-23: the body, then the deferred loop; a panic of a closer replaces one of the body. The result is a
slice: `none` is nil. -/
def using_ (cs : List (Closer W P E)) (f : W → Except P Unit × W) (w : W) : Res P (Option (List E)) × W :=
  match f w with
  | (r, w) =>
    match closeLoop cs [] w with
    | (.error p, w) => (.panic p, w)
    | (.ok errs, w) =>
      match r with
      | .error p => (.panic p, w)
      | .ok () => (.ret (if errs.length > 0 then some errs else none), w)

end Verif.ClosePanic
