import Verif.CloseMgr.Model
import Verif.Conc.RW
/-!
# Model of `iox/managerx/closex` in concurrent use

Any goroutines call `Append` and `Close` of one manager at any time. The closers are effects on a world of their own, as in `Verif.CloseMgr`; a `Close` calls them one by
one, with the mutex held. They do not panic (C94) and do not use the manager (C91).
-/
namespace Verif.CloseServe
open Verif.Conc Verif.CloseMgr

variable {W : Type}

/-- What a manager holds: an effect that returns an error or nil. -/
abbrev Closer (W : Type) := W → Option Err × W

/-- The calls. -/
inductive Call (W : Type) where
  | append (c : Closer W)
  | close

/-- What they return. -/
inductive Res where
  | unit
  | err (e : Option Err)

/-- Where a `Close` is: before the loop; in the loop, with the closers that are left, `errs`, and the world that the closers have made. -/
inductive Acc (W : Type) where
  | start
  | loop (left : List (Closer W)) (errs : List Err) (w : W)

/-- A step under the lock. -/
inductive Iter (m : Mgr W × W) : Call W → Acc W → Acc W → Prop
  | enter : Iter m .close .start (.loop m.1.list [] m.2)                                                     -- manager.go:29-31
  | fine {c cs errs w w'} : c w = (none, w') → Iter m .close (.loop (c :: cs) errs w) (.loop cs errs w')         -- manager.go:32-33
  | failed {c cs errs w e w'} : c w = (some e, w') → Iter m .close (.loop (c :: cs) errs w) (.loop cs (errs ++ [e]) w')  -- manager.go:32-35

/-- The end of a call. -/
inductive Finish (m : Mgr W × W) : Call W → Acc W → Res → Mgr W × W → Prop
  | append {c} : Finish m (.append c) .start .unit (m.1.append c, m.2)                           -- manager.go:22
  | close {errs w} : Finish m .close (.loop [] errs w) (.err (some (.list errs))) (m.1, w)       -- manager.go:39

/-- manager.go:10-40, with `sync.Mutex`: all calls exclude each other. -/
def manager (w : W) : RW.Guarded (Mgr W × W) (Acc W) (Call W) Res where
  init := (new, w)
  writes _ := true
  start := .start
  iter := Iter
  fin := Finish

end Verif.CloseServe
