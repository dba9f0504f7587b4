import Verif.SliceC.Model
/-!
# Abstract stack and abstract sequence
-/
namespace Verif.SliceC

variable {T : Type}

/-- A stack is the list of its elements, top first. -/
def stackSpec (l : List T) : SOp T → List T × Res T
  | .push v _ => (v :: l, .bool true)
  | .pop => match l with
    | [] => ([], .none)
    | x :: l => (l, .val x)
  | .peek => (l, match l with | [] => .none | x :: _ => .val x)
  | .isEmpty => (l, .bool l.isEmpty)
  | .len => (l, .num l.length)

def stackSpecRun (l : List T) : List (SOp T) → List (Res T)
  | [] => []
  | op :: ops => (stackSpec l op).2 :: stackSpecRun (stackSpec l op).1 ops

/-- Element `i`, if there is one. -/
def nth (l : List T) (i : Int) : Option T := if 0 ≤ i then l[i.toNat]? else none

def ofOpt : Option T → Res T
  | some x => .val x
  | none => .none

/-- `vs` is what an iteration over `l` hands to `f` when `f` (given all values so far) decides
whether to go on: a non-empty-as-possible prefix of `l`, on all proper prefixes of which `f` said
yes, and which is all of `l` unless `f` said no at its end. -/
def Visits (f : List T → Bool) (l vs : List T) : Prop :=
  vs <+: l ∧ (∀ ws, ws ≠ [] → ws <+: vs → ws ≠ vs → f ws = true) ∧ (vs = l ∨ (vs ≠ [] ∧ f vs = false))

/-- The sequence after a call and the result of the call. `Insert` outside `0..len` panics and leaves
the value appended. -/
def ListSpec (l : List T) (op : LOp T) (l' : List T) (r : Res T) : Prop :=
  match op with
  | .append v _ => l' = l ++ [v] ∧ r = .unit
  | .insert i v _ =>
    if 0 ≤ i ∧ i ≤ l.length then l' = l.take i.toNat ++ v :: l.drop i.toNat ∧ r = .unit
    else l' = l ++ [v] ∧ r = .panic
  | .remove i => l' = (if 0 ≤ i then l.eraseIdx i.toNat else l) ∧ r = ofOpt (nth l i)
  | .at i => l' = l ∧ r = ofOpt (nth l i)
  | .iterate f => l' = l ∧ ∃ vs, r = .vals vs ∧ Visits f l vs
  | .len => l' = l ∧ r = .num l.length

/-- The results of a history of calls. -/
inductive ListSpecRun : List T → List (LOp T) → List (Res T) → Prop
  | nil {l} : ListSpecRun l [] []
  | cons {l op l' r ops rs} : ListSpec l op l' r → ListSpecRun l' ops rs → ListSpecRun l (op :: ops) (r :: rs)

end Verif.SliceC
