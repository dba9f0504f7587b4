import Verif.Linked.List
/-!
# Model of `Iterate` of `dsx/linkedx/listx` with callbacks that use the list

The loop holds a pointer to a node. It hands the value to the callback, and then reads `next` of that node, as the callback
left it. The callback may call all methods; what it calls may depend on its state and on what the calls before gave.
-/
namespace Verif.ListMod
open Verif.Linked Verif.Linked.LList

variable {T σ : Type} [Inhabited T]

/-- What a callback does: calls of methods, then a new state and the value it returns. A panic of a call is recovered by the
callback. The calls are those of `Op`: an `Iterate` inside the callback only looks. -/
inductive Prog (σ T : Type) where
  | done (s : σ) (go : Bool)
  | call (op : Op T) (k : Res T → Prog σ T)

/-- Run it. -/
def exec (l : LL T) : Prog σ T → LL T × σ × Bool
  | .done s go => (l, s, go)
  | .call op k => exec (step l op).1 (k (step l op).2)

/-- What is there after some rounds: the list, the pointer of the loop, the state of the callback, and the values it was given. -/
structure It (σ T : Type) where
  list : LL T
  cur : Option Nat
  state : σ
  log : List T

/-- listx.go:115-121, one round of `Iterate`. -/
def round (f : σ → T → Prog σ T) (t : It σ T) : It σ T :=
  match t.cur with
  | none => t
  | some p =>
    let v := (t.list.mem.node p).data
    match exec t.list (f t.state v) with
    | (l', s', go) => ⟨l', if go then (l'.mem.node p).next else none, s', t.log ++ [v]⟩

/-- listx.go:115-121 `Iterate`, the first `n` rounds. It has returned when `cur = none`. -/
def rounds (f : σ → T → Prog σ T) (l : LL T) (s : σ) (n : Nat) : It σ T := (round f)^[n] ⟨l, l.head, s, []⟩

/-- The list after a history. -/
def after (l : LL T) : List (Op T) → LL T
  | [] => l
  | op :: ops => after (step l op).1 ops

end Verif.ListMod
