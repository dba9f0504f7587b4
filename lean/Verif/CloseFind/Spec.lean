import Verif.CloseFind.Model
/-!
# What can be found in an error
-/
namespace Verif.CloseFind

/-- The second error is reached from the first one by unwrapping. -/
inductive Sub : Err → Err → Prop
  | refl (e : Err) : Sub e e
  | step {id : Nat} {m : Nat → Bool} {kids : List Err} {k e : Err} (hk : k ∈ kids) (h : Sub k e) : Sub (.node id m kids) e

/-- Some error reached by unwrapping is the target, or says so. -/
def Finds (t : Nat) (e : Err) : Prop := ∃ id m kids, Sub e (.node id m kids) ∧ (id = t ∨ m t = true)

/-- An error with a place for another one in it: wrapped by errors that wrap other errors on its left and right. -/
inductive Ctx where
  | here
  | under (id : Nat) (m : Nat → Bool) (left : List Err) (c : Ctx) (right : List Err)

/-- Put an error there. -/
def Ctx.plug : Ctx → Err → Err
  | .here, e => e
  | .under id m left c right, e => .node id m (left ++ c.plug e :: right)

/-- There is no `ErrorList` on the left of the place. -/
def Ctx.First : Ctx → Prop
  | .here => True
  | .under _ _ left c _ => (∀ l ∈ left, ∀ es, ¬ Sub l (.list es)) ∧ c.First

end Verif.CloseFind
