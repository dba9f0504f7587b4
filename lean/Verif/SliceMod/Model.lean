import Verif.Slicex.Model
/-!
# Model of the loops of `dsx/slicex` and `dsx/slicex/listx` with callbacks that use the slice

`range` evaluates its slice once: the loop keeps the header from the start and reads the element of round `k` when it gets there.
The callback may change the memory and the variable that holds the slice, by calls of methods. As everything is deterministic once
the growths of `append` are given, the calls it makes are a function of its state, of the slice and of the arguments.
-/
namespace Verif.SliceMod
open Verif.Go

/-- Memory and the variable that holds the slice. -/
abbrev W (T : Type) := Hp T × Sl

/-- Calls a callback may make on the slice; the numbers are the capacity surpluses `append` chooses. -/
inductive MOp (T : Type) where
  | push (v : T) (g1 g2 : Nat)
  | pop (g1 g2 : Nat)
  | unShift (v : T) (g1 g2 : Nat)
  | shift (g1 g2 : Nat)
  | insert (i : Int) (v : T) (g1 g2 : Nat)
  | delete (i : Int) (g1 g2 : Nat)
  | set (i : Int) (v : T)
  | reverse
  | clear

section
variable {T σ : Type} [Inhabited T]

/-- One call (slicex.go:26-38, 69-107, 116-121). -/
def step (w : W T) : MOp T → Outcome (W T)
  | .push v g1 g2 => Slicex.push w.1 g1 g2 w.2 v
  | .pop g1 g2 => (Slicex.pop w.1 g1 g2 w.2).map Prod.fst
  | .unShift v g1 g2 => Slicex.unShift w.1 g1 g2 w.2 v
  | .shift g1 g2 => (Slicex.shift w.1 g1 g2 w.2).map Prod.fst
  | .insert i v g1 g2 => Slicex.insert w.1 g1 g2 w.2 i v
  | .delete i g1 g2 => Slicex.delete w.1 g1 g2 w.2 i
  | .set i v => (Slicex.set w.1 w.2 i v).map fun h => (h, w.2)
  | .reverse => (Slicex.reverse w.1 w.2).map fun h => (h, w.2)
  | .clear => (Slicex.clear w.2).map fun s => (w.1, s)

def run (w : W T) : List (MOp T) → Outcome (W T)
  | [] => .ret w
  | op :: ops => (step w op).bind fun w => run w ops

/-- A callback: from its state, the slice, index and value to its new state, the calls it makes and what it returns. -/
abbrev Callback (σ T : Type) := σ → W T → Nat → T → σ × List (MOp T) × Bool

/-- The loop `for i, v := range s` over the header `s0`, from index `k` on with `r` rounds to go; it is left when `brk` holds of what
the callback returns. The result says at which index. -/
def loop (brk : Bool → Bool) (f : Callback σ T) (s0 : Sl) : Nat → Nat → σ → W T → Outcome ((σ × W T) × Option Nat)
  | 0, _, x, w => .ret ((x, w), none)
  | r + 1, k, x, w =>
    let c := f x w k (w.1.mem s0.arr (s0.off + k))
    (run w c.2.1).bind fun w' => if brk c.2.2 then .ret ((c.1, w'), some k) else loop brk f s0 r (k + 1) c.1 w'

/-- slicex.go:225-235 `Each`, `ForEach`. -/
def forEach (f : Callback σ T) (x : σ) (w : W T) : Outcome (σ × W T) :=
  (loop (fun _ => false) f w.2 w.2.len 0 x w).map Prod.fst

/-- slicex.go:207-214 `IndexOf`. -/
def indexOf (f : Callback σ T) (x : σ) (w : W T) : Outcome ((σ × W T) × Int) :=
  (loop (fun b => b) f w.2 w.2.len 0 x w).map fun r => (r.1, match r.2 with | some k => (k : Int) | none => -1)

/-- slicex.go:216-223 `Contains`. -/
def contains (f : Callback σ T) (x : σ) (w : W T) : Outcome ((σ × W T) × Bool) :=
  (loop (fun b => b) f w.2 w.2.len 0 x w).map fun r => (r.1, r.2.isSome)

/-- listx.go:38-44 `Iterate`. -/
def iterate (f : Callback σ T) (x : σ) (w : W T) : Outcome (σ × W T) :=
  (loop (fun b => !b) f w.2 w.2.len 0 x w).map Prod.fst

/-- slicex.go:146-152, the loop of `Filter`: `(*s)[n] = v` uses the variable as it is after the callback. -/
def filterLoop (f : Callback σ T) (s0 : Sl) : Nat → Nat → Nat → σ → W T → Outcome ((σ × W T) × Nat)
  | 0, _, n, x, w => .ret ((x, w), n)
  | r + 1, k, n, x, w =>
    let v := w.1.mem s0.arr (s0.off + k)
    let c := f x w k v
    (run w c.2.1).bind fun w' =>
      if c.2.2 then (store w'.1 w'.2 n v).bind fun h => filterLoop f s0 r (k + 1) (n + 1) c.1 (h, w'.2)
      else filterLoop f s0 r (k + 1) n c.1 w'

/-- slicex.go:145-155 `Filter`. -/
def filter (f : Callback σ T) (x : σ) (w : W T) : Outcome (σ × W T) :=
  (filterLoop f w.2 w.2.len 0 0 x w).bind fun r => (reslice r.1.2.2 0 r.2).bind fun s => .ret (r.1.1, (r.1.2.1, s))

end
end Verif.SliceMod
