import Mathlib.Data.Fintype.Card
import Mathlib.Data.Finset.Card
import Verif.CloseMgr.Model
import Verif.Go.Basic
/-!
# Close managers registered with close managers

`*CloseManager` is an `io.Closer` (iox/managerx/closex/manager.go:8), so one may be appended to another, to
itself, or passed to `usingx.Close`. There are `n` managers; what is registered with each does not change
while one of them is closed, and one goroutine does the closing. `Close` holds the manager's mutex while it
calls the closers (manager.go:26-27); a mutex that the goroutine holds already is waited for for ever.
Closers that are not managers are effects on a world that return an error or nil, as in C60.
-/
namespace Verif.CloseNest
open Verif.CloseMgr Verif.Go

variable {n : Nat} {W : Type}

/-- What is registered: some closer, or a manager. -/
inductive Item (n : Nat) (W : Type) where
  | leaf (c : W → Option Err × W)
  | mgr (m : Fin n)

mutual
/-- manager.go:25-40 `Close` of manager `m` by a goroutine that holds the mutexes `locked`: the error list
and the world. -/
def closeMgr (g : Fin n → List (Item n W)) (locked : Finset (Fin n)) (m : Fin n) (w : W) : Outcome (List Err × W) :=
  if h : m ∈ locked then .hang else closeLoop g (insert m locked) (g m) [] w
termination_by (lockedᶜ.card, 0)
decreasing_by
  apply Prod.Lex.left
  rw [Finset.compl_insert]
  exact Finset.card_erase_lt_of_mem (by simpa using h)

/-- manager.go:32-37, the loop; the `ErrorList` of a manager becomes a non-nil `error` (manager.go:39). It is
also the loop of `usingx.Close` (usingx/using.go:11-15). -/
def closeLoop (g : Fin n → List (Item n W)) (locked : Finset (Fin n)) (is : List (Item n W)) (errs : List Err)
    (w : W) : Outcome (List Err × W) :=
  match is with
  | [] => .ret (errs, w)
  | .leaf c :: is =>
    match c w with
    | (none, w) => closeLoop g locked is errs w
    | (some e, w) => closeLoop g locked is (errs ++ [e]) w
  | .mgr m :: is =>
    match closeMgr g locked m w with
    | .ret (es, w) => closeLoop g locked is (errs ++ [.list es]) w
    | .panic => .panic
    | .hang => .hang
termination_by (lockedᶜ.card, is.length + 1)
end

/-- usingx/using.go:7-23 `Close(cs...)(f)` where `f` does nothing: nil is `none`. -/
def using_ (g : Fin n → List (Item n W)) (is : List (Item n W)) (w : W) : Outcome (Option (List Err) × W) :=
  match closeLoop g ∅ is [] w with
  | .ret (errs, w) => .ret (if errs.length > 0 then some errs else none, w)
  | .panic => .panic
  | .hang => .hang

/-- The texts of the errors that are not error lists: their type (`%T`) and what `Error()` says. -/
structure Texts where
  type : Err → List Char
  text : Err → List Char

def newline : List Char := ['\n']

/-- types.go:15. -/
def header (t : Texts) (e : Err) : List Char := "error - ".toList ++ t.type e ++ newline

mutual
/-- types.go:11-21 `Error` of an `ErrorList`; other errors say what they say. -/
def text (t : Texts) : Err → List Char
  | .list es => texts t es
  | .plain i => t.text (.plain i)
  | .wrap i e => t.text (.wrap i e)

/-- types.go:14-18, the loop. -/
def texts (t : Texts) : List Err → List Char
  | [] => []
  | e :: es => header t e ++ text t e ++ newline ++ texts t es
end

end Verif.CloseNest
