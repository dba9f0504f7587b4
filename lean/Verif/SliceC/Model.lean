import Verif.Go.Slice
/-!
# Models of `dsx/slicex/stackx` and `dsx/slicex/listx`
-/
namespace Verif.SliceC
open Verif.Go

variable {T : Type} [Inhabited T]

/-- Memory and the slice in the structure (stackx.go:7-9 `Stack`, listx.go:7 `List`). -/
structure St (T : Type) where
  h : Hp T
  s : Sl

inductive Res (T : Type) where
  | unit
  | none
  | val (v : T)
  | bool (b : Bool)
  | num (n : Int)
  | vals (l : List T)
  | panic
  deriving DecidableEq

/-! ## The stack -/

/-- The methods of the stack; `push` carries the growth `append` chooses. -/
inductive SOp (T : Type) where
  | push (v : T) (grow : Nat)
  | pop
  | peek
  | isEmpty
  | len

/-- stackx.go:11-13 `New`: `make([]T, 0)`. -/
def newStack (h : Hp T) : St T := let (h, s) := h.alloc [] 0; ⟨h, s⟩

/-- stackx.go:15-18 `Push`. -/
def push (x : St T) (v : T) (g : Nat) : St T × Res T :=
  let (h, s) := append x.h g x.s [v]
  (⟨h, s⟩, .bool true)

/-- stackx.go:20-27 `Pop`. -/
def pop (x : St T) : St T × Res T :=
  if x.s.len = 0 then (x, .none)
  else match index x.h x.s (x.s.len - 1), reslice x.s 0 (x.s.len - 1) with
    | .ret v, .ret s => (⟨x.h, s⟩, .val v)
    | _, _ => (x, .panic)

/-- stackx.go:29-35 `Peek`. -/
def peek (x : St T) : St T × Res T :=
  if x.s.len = 0 then (x, .none)
  else match index x.h x.s (x.s.len - 1) with
    | .ret v => (x, .val v)
    | _ => (x, .panic)

def stackStep (x : St T) : SOp T → St T × Res T
  | .push v g => push x v g
  | .pop => pop x
  | .peek => peek x
  | .isEmpty => (x, .bool (decide (x.s.len = 0)))   -- stackx.go:37-39 `IsEmpty`
  | .len => (x, .num x.s.len)                       -- stackx.go:41-43 `Len`

def stackRun (x : St T) : List (SOp T) → List (Res T)
  | [] => []
  | op :: ops => (stackStep x op).2 :: stackRun (stackStep x op).1 ops

/-! ## The list -/

/-- The methods of the list. The callback of `Iterate` may depend on what it was given so far. -/
inductive LOp (T : Type) where
  | append (v : T) (grow : Nat)
  | insert (i : Int) (v : T) (grow : Nat)
  | remove (i : Int)
  | at (i : Int)
  | iterate (f : List T → Bool)
  | len

/-- The zero `List`: a nil slice (listx.go:7). -/
def newList (h : Hp T) : St T := ⟨h, Sl.nil⟩

/-- listx.go:9-11 `Append`. -/
def lappend (x : St T) (v : T) (g : Nat) : St T × Res T :=
  let (h, s) := append x.h g x.s [v]
  (⟨h, s⟩, .unit)

/-- listx.go:13-17 `Insert`. The list has grown already when a bad index panics. -/
def linsert (x : St T) (i : Int) (v : T) (g : Nat) : St T × Res T :=
  let (h, s) := append x.h g x.s [v]
  match reslice s (wrap64 (i + 1)) s.len, reslice s i s.len with
  | .ret dst, .ret src =>
    let h := copySl h dst src
    match store h s i v with
    | .ret h => (⟨h, s⟩, .unit)
    | _ => (⟨h, s⟩, .panic)
  | _, _ => (⟨h, s⟩, .panic)

/-- listx.go:19-27 `Remove`. The append never exceeds the capacity. -/
def lremove (x : St T) (i : Int) : St T × Res T :=
  if i < 0 ∨ i ≥ x.s.len then (x, .none)
  else match index x.h x.s i, reslice x.s 0 i, reslice x.s (wrap64 (i + 1)) x.s.len with
    | .ret v, .ret a, .ret b =>
      let (h, s) := append x.h 0 a (elems x.h b)
      (⟨h, s⟩, .val v)
    | _, _, _ => (x, .panic)

/-- listx.go:29-36 `At`. -/
def lat (x : St T) (i : Int) : St T × Res T :=
  if i < 0 ∨ i ≥ x.s.len then (x, .none)
  else match index x.h x.s i with
    | .ret v => (x, .val v)
    | _ => (x, .panic)

/-- listx.go:38-44, the loop of `Iterate`: the values handed to the callback. -/
def iter (f : List T → Bool) : List T → List T → List T
  | acc, [] => acc
  | acc, v :: vs => if !f (acc ++ [v]) then acc ++ [v] else iter f (acc ++ [v]) vs

def listStep (x : St T) : LOp T → St T × Res T
  | .append v g => lappend x v g
  | .insert i v g => linsert x i v g
  | .remove i => lremove x i
  | .at i => lat x i
  | .iterate f => (x, .vals (iter f [] (elems x.h x.s)))  -- listx.go:38-44 `Iterate`
  | .len => (x, .num x.s.len)                             -- listx.go:46-48 `Len`

def listRun (x : St T) : List (LOp T) → List (Res T)
  | [] => []
  | op :: ops => (listStep x op).2 :: listRun (listStep x op).1 ops

end Verif.SliceC
