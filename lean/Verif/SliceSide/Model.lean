import Verif.SliceAll.Model
/-!
# Model of a program with several slices

The variables of a program hold `*Slice[T]`s (`dsx/slicex/slicex.go`). It makes slices with `New` and `Copy` and calls methods on
them, in any order. The methods are those of `Verif.SliceAll`, the memory is common.
-/
namespace Verif.SliceSide
open Verif.Go Verif.Slicex Verif.SliceAll

variable {T : Type} [Inhabited T]

/-- The memory and the variables. -/
structure World (T : Type) where
  h : Hp T
  s : Nat → Sl

/-- What the program does. -/
inductive Cmd (T : Type) where
  | call (i : Nat) (op : Op T)
  | new (i : Nat) (vs : List T)
  | copy (i j : Nat)
  | newOf (i j : Nat)
  | spliceFrom (i : Nat) (a b : Int) (j : Nat)

/-- `New` with elements given one by one (slicex.go:10-13), a call of a method of variable `i` that returns (slicex.go:15-243), and
`Copy` of variable `j` into variable `i` (slicex.go:21-24). With the dots of `New(x...)` (slicex.go:10-13) and `Splice(a, b, x...)`
(slicex.go:59-63) the method gets the slice in variable `j` itself and not a new array; `Expand(a, x...)` (slicex.go:65-67) is
`Splice(a, a, x...)`. -/
inductive Step (lim : Nat) : World T → Cmd T → Res T → World T → Prop
  | call {w i op h' s' r} (c : Choice) : step lim c (w.h, w.s i) op = .ret ((h', s'), r) →
      Step lim w (.call i op) r ⟨h', Function.update w.s i s'⟩
  | new {w i vs} : Step lim w (.new i vs) .done ⟨(args w.h vs).1, Function.update w.s i (args w.h vs).2⟩
  | copy {w i j} (g : Nat) :
      Step lim w (.copy i j) .done ⟨(Slicex.copy w.h g (w.s j)).1, Function.update w.s i (Slicex.copy w.h g (w.s j)).2⟩

  | newOf {w i j} : Step lim w (.newOf i j) .done ⟨w.h, Function.update w.s i (w.s j)⟩
  | spliceFrom {w i a b j h' s'} (g1 g2 : Nat) : splice w.h g1 g2 (w.s i) a b (w.s j) = .ret (h', s') →
      Step lim w (.spliceFrom i a b j) .done ⟨h', Function.update w.s i s'⟩

/-- The variable a command is about. -/
def Cmd.about : Cmd T → Nat
  | .call i _ | .new i _ | .copy i _ | .newOf i _ | .spliceFrom i _ _ _ => i

/-- The command is not `New(x...)`. -/
def Cmd.Plain : Cmd T → Prop
  | .newOf _ _ => False
  | _ => True

/-- At the start every variable holds an empty slice and there is no memory. -/
def start : World T := ⟨⟨fun _ _ => default, 0⟩, fun _ => Sl.nil⟩

/-- The slices of the variables are good. -/
def Good (w : World T) : Prop := ∀ i, (w.s i).Ok w.h

/-- No array is in reach of two variables: the windows the slices can grow into are apart. -/
def Apart (s t : Sl) : Prop := s.cap = 0 ∨ t.cap = 0 ∨ s.arr ≠ t.arr ∨ s.off + s.cap ≤ t.off ∨ t.off + t.cap ≤ s.off

/-- All variables are apart from each other. -/
def AllApart (w : World T) : Prop := ∀ i j, i ≠ j → Apart (w.s i) (w.s j)

/-- Runs of a program, with what the calls showed; `ok` says which commands it uses in which states. -/
inductive Run (lim : Nat) (ok : World T → Cmd T → Prop) : World T → List (Cmd T × Res T) → World T → Prop
  | nil (w : World T) : Run lim ok w [] w
  | cons {w w' w'' : World T} {cmd : Cmd T} {r : Res T} {t : List (Cmd T × Res T)} :
      ok w cmd → Step lim w cmd r w' → Run lim ok w' t w'' → Run lim ok w ((cmd, r) :: t) w''

/-- The arguments of a call are `int`s, do not overflow one, and the length of its slice is an `int`. -/
def Fits (w : World T) : Cmd T → Prop
  | .call i op => ((w.s i).len : Int) < 2 ^ 63 ∧ op.Typed ∧ op.Fits (w.s i).len
  | _ => True

end Verif.SliceSide
