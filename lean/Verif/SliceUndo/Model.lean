import Verif.SliceAll.Props
/-!
# An editor with undo on a slice

A program that edits a `Slice` (dsx/slicex/slicex.go) with its methods and keeps a list of the calls that would take the edits back,
the newest first. What it writes down before a call it reads from the slice: the length and the elements. The slice and its memory are
those of `Verif.SliceAll`.
-/
namespace Verif.SliceUndo
open Verif.Go Verif.Slicex Verif.SliceAll

variable {T : Type} [Inhabited T]

/-- The last element. -/
def lastD (l : List T) : T := l.getLast?.getD default

/-- What to call to take a call back, given the elements before it. The indices are brought into range as slicex.go:247-264 does. -/
def undo (l : List T) : Op T → List (Op T)
  | .set i _ => [.set i (l.getD (bound i (l.length - 1)) default)]
  | .slice i j =>
    let j' := if j < 0 then l.length + j else j
    [.expand 0 (l.take (lo i j' l.length)), .expand (hi i j' l.length) (l.drop (hi i j' l.length))]
  | .splice i j vs =>
    [.splice (lo i j l.length) ((lo i j l.length : Nat) + vs.length) ((l.take (hi i j l.length)).drop (lo i j l.length))]
  | .expand i vs => [.cut (bound i l.length) ((bound i l.length : Nat) + vs.length)]
  | .insert i _ => [.delete (bound i l.length)]
  | .cut i j => [.expand (lo i j l.length) ((l.take (hi i j l.length)).drop (lo i j l.length))]
  | .delete i => if 0 ≤ i ∧ i < l.length then [.insert i (l.getD i.toNat default)] else []
  | .push _ => [.pop]
  | .pop => if l.isEmpty then [] else [.push (lastD l)]
  | .unShift _ => [.shift]
  | .shift => if l.isEmpty then [] else [.unShift (l.head?.getD default)]
  | .deleteReplace i => [.push (lastD l), .set i (l.getD i.toNat default)]
  | .reverse => [.reverse]
  | .rotate n => [.rotate (-n)]
  | .shuffle => [.clear, .expand 0 l]
  | .filter _ => [.clear, .expand 0 l]
  | .rep _ => [.clear, .expand 0 l]
  | .extend _ => [.slice 0 l.length]
  | .clear => [.expand 0 l]
  | _ => []

/-- Calls one after the other; `cs` is what the run time chooses during each. -/
def runOps (lim : Nat) (cs : Nat → Choice) (w : Hp T × Sl) : List (Op T) → Outcome (Hp T × Sl)
  | [] => .ret w
  | op :: ops => (step lim (cs 0) w op).bind fun p => runOps lim (fun n => cs (n + 1)) p.1 ops

/-- Editing: from the first state to the second, with the list of calls to take everything back. Arguments do not overflow
(`Op.Fits`), lengths are `int`s. -/
inductive Edits (lim : Nat) (w : Hp T × Sl) : List (Op T) → Hp T × Sl → Prop
  | nil : Edits lim w [] w
  | edit {u w' w'' op r} (c : Choice) : Edits lim w u w' → op.Typed → op.Fits w'.2.len → step lim c w' op = .ret (w'', r) →
      (w''.2.len : Int) < 2 ^ 63 → Edits lim w (undo (elems w'.1 w'.2) op ++ u) w''

end Verif.SliceUndo
