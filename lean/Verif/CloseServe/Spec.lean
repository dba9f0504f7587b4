import Verif.CloseServe.Model
import Verif.MapFair.Spec
/-!
# C178, the statement: a close manager is one list of closers
-/
namespace Verif.CloseServe
open Verif.Conc Verif.CloseMgr

variable {W : Type}

/-- The closers are called once each, in this order, and these are their errors. -/
inductive Closes : List (Closer W) → W → List Err → W → Prop
  | nil {w} : Closes [] w [] w
  | fine {c cs w w1 es w2} : c w = (none, w1) → Closes cs w1 es w2 → Closes (c :: cs) w es w2
  | failed {c cs w e w1 es w2} : c w = (some e, w1) → Closes cs w1 es w2 → Closes (c :: cs) w (e :: es) w2

/-- The manager without concurrency: what was appended, and the world. -/
def listObj (w : W) : Obj (List (Closer W) × W) (Call W) Res where
  init := ([], w)
  step s c r s' := match c with
    | .append c => r = .unit ∧ s' = (s.1 ++ [c], s.2)
    | .close => ∃ es w', Closes s.1 s.2 es w' ∧ r = .err (some (.list es)) ∧ s' = (s.1, w')

end Verif.CloseServe
