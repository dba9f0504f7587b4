import Verif.SliceAll.Spec
/-!
# The whole method set of `dsx/slicex/slicex.go` as one step function

Each case calls the model of the method (`Verif.Slicex.Model`).
-/
namespace Verif.SliceAll
open Verif.Go Verif.Slicex

variable {T : Type} [Inhabited T]

/-- What the run time chooses during a call: the surplus capacities of up to two `append`s, those of
`Repeat`'s loop, and the random numbers. -/
structure Choice where
  g1 : Nat
  g2 : Nat
  gs : Nat → Nat
  draw : Nat → Nat

/-- The slice of variadic arguments given one by one: nil if there are none, else a new array. -/
def args (h : Hp T) (vs : List T) : Hp T × Sl := if vs.isEmpty then (h, Sl.nil) else h.alloc vs 0

/-- A result without a value. -/
def unit (o : Outcome (Hp T × Sl)) : Outcome ((Hp T × Sl) × Res T) := o.bind fun w => .ret (w, .done)

/-- slicex.go:10-243: a call on the slice `w.2` in memory `w.1`. -/
def step (lim : Nat) (c : Choice) (w : Hp T × Sl) : Op T → Outcome ((Hp T × Sl) × Res T)
  | .set i v => (set w.1 w.2 i v).bind fun h => .ret ((h, w.2), .done)
  | .get i => (get w.1 w.2 i).bind fun v => .ret (w, .val v)
  | .slice i j => (slice w.2 i j).bind fun s => .ret ((w.1, s), .done)
  | .splice i j vs => unit (splice (args w.1 vs).1 c.g1 c.g2 w.2 i j (args w.1 vs).2)
  | .expand i vs => unit (expand (args w.1 vs).1 c.g1 c.g2 w.2 i (args w.1 vs).2)
  | .insert i v => unit (insert w.1 c.g1 c.g2 w.2 i v)
  | .cut i j => unit (cut w.1 c.g1 c.g2 w.2 i j)
  | .delete i => unit (delete w.1 c.g1 c.g2 w.2 i)
  | .push v => unit (push w.1 c.g1 c.g2 w.2 v)
  | .pop => (pop w.1 c.g1 c.g2 w.2).bind fun p => .ret (p.1, .val p.2)
  | .unShift v => unit (unShift w.1 c.g1 c.g2 w.2 v)
  | .shift => (shift w.1 c.g1 c.g2 w.2).bind fun p => .ret (p.1, .val p.2)
  | .deleteReplace i => unit (deleteReplace w.1 w.2 i)
  | .reverse => (reverse w.1 w.2).bind fun h => .ret ((h, w.2), .done)
  | .rotate n => unit (rotate w.1 c.g1 w.2 n)
  | .shuffle => (shuffle w.1 w.2 c.draw).bind fun h => .ret ((h, w.2), .done)
  | .filter f => unit (filter f w.1 w.2)
  | .rep n => unit (rep lim w.1 c.gs w.2 n)
  | .extend n => unit (extend lim w.1 c.g1 w.2 n)
  | .clear => (clear w.2).bind fun s => .ret ((w.1, s), .done)
  | .copy => let p := copy w.1 c.g1 w.2; .ret ((p.1, w.2), .list (elems p.1 p.2))
  | .split ns => (split w.2 ns).bind fun r => .ret (w, .lists (r.map (elems w.1)))
  | .batch n => (batch w.2 n).bind fun r => .ret (w, .lists (r.map (elems w.1)))
  | .join fmt sep => .ret (w, .str (join fmt w.1 w.2 sep))
  | .indexOf f => .ret (w, .num (indexOf f w.1 w.2).1)
  | .contains f => .ret (w, .yes (contains f w.1 w.2).1)
  | .each => .ret (w, .list (each (fun acc v => acc ++ [v]) w.1 w.2 []))
  | .forEach => .ret (w, .pairs (forEach (fun acc i v => acc ++ [(i, v)]) w.1 w.2 []))
  | .len => .ret (w, .num (Slicex.len w.2))
  | .finalize => .ret (w, .list (elems w.1 w.2))

/-- A history of calls on one slice, with what they showed, in which every argument meets `ok` and
lengths stay `int`s. -/
inductive Hist (lim : Nat) (ok : Nat → Op T → Prop) : Hp T × Sl → List (Op T × Res T) → Hp T × Sl → Prop
  | nil (w : Hp T × Sl) : Hist lim ok w [] w
  | cons {w w' w'' : Hp T × Sl} {op : Op T} {r : Res T} {t : List (Op T × Res T)} (c : Choice) :
      (w.2.len : Int) < 2 ^ 63 → ok w.2.len op → step lim c w op = .ret (w', r) → Hist lim ok w' t w'' →
      Hist lim ok w ((op, r) :: t) w''

end Verif.SliceAll
