import Verif.CloseNest.Model
/-!
# What users of nested close managers rely on
-/
namespace Verif.CloseNest
open Verif.CloseMgr

variable {n : Nat} {W : Type}

/-- The closers below a list of registrations, with managers replaced by what is registered with them, in
order: a manager that is registered twice counts twice, one that is below itself has no such list. -/
inductive Unfolds (g : Fin n → List (Item n W)) : List (Item n W) → List (W → Option Err × W) → Prop
  | nil : Unfolds g [] []
  | leaf {c is ls} : Unfolds g is ls → Unfolds g (.leaf c :: is) (c :: ls)
  | mgr {m is ls ls'} : Unfolds g (g m) ls → Unfolds g is ls' → Unfolds g (.mgr m :: is) (ls ++ ls')

/-- Call closers one after the other: the errors and the world. -/
def errorsOf : List (W → Option Err × W) → W → List Err × W
  | [], w => ([], w)
  | c :: cs, w => ((c w).1.toList ++ (errorsOf cs (c w).2).1, (errorsOf cs (c w).2).2)

mutual
/-- Ask `AsErrs` again and again: all errors inside an error. -/
def flat : Err → List Err
  | .list es => flats es
  | .plain i => [.plain i]
  | .wrap i e => match asList e with
    | none => [.wrap i e]
    | some _ => flat e

def flats : List Err → List Err
  | [] => []
  | e :: es => flat e ++ flats es
end

mutual
/-- All errors in an error list and in the error lists in it (without unwrapping). -/
def parts : Err → List Err
  | .list es => partsAll es
  | .plain i => [.plain i]
  | .wrap i e => [.wrap i e]

def partsAll : List Err → List Err
  | [] => []
  | e :: es => parts e ++ partsAll es
end

/-- The strings occur in the text one after the other. -/
inductive InOrder : List (List Char) → List Char → Prop
  | nil (s) : InOrder [] s
  | cons {m ms} (a b : List Char) : InOrder ms b → InOrder (m :: ms) (a ++ m ++ b)

/-- One manager can be reached from a list of registrations. -/
inductive Below (g : Fin n → List (Item n W)) : List (Item n W) → Fin n → Prop
  | here {is m} : Item.mgr m ∈ is → Below g is m
  | there {is k m} : Item.mgr k ∈ is → Below g (g k) m → Below g is m

/-- No manager below the list is below itself. -/
def Acyclic (g : Fin n → List (Item n W)) (is : List (Item n W)) : Prop := ∀ k, Below g is k → ¬ Below g (g k) k

end Verif.CloseNest
