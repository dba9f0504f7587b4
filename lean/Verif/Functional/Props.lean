import Verif.Functional.Model
/-!
# Property C34: `Option` and `Result`
-/
namespace Verif.Functional
open Verif.Go

variable {T E : Type} [Inhabited T] [Inhabited E]

/-- A callback invocation, as an observer sees it. -/
inductive Call (T E : Type) where
  | f (x : T)
  | gNone
  | gErr (e : E)
  deriving DecidableEq

/-- A callback that records its invocation and then does what `r` says. -/
def spy {α : Type} (c : α → Call T E) (r : α → Outcome (T × E)) (a : α) (log : List (Call T E)) :
    Outcome (List (Call T E) × T × E) :=
  (r a).map fun p => (log ++ [c a], p)

/-- **C34.** `Match` makes exactly one callback invocation - the branch the value was constructed
with, on the payload it was constructed with - and returns (or panics, or hangs) as that does. -/
theorem C34_match (x : T) (e : E) (rf : T → Outcome (T × E)) (rn : Unit → Outcome (T × E)) (re : E → Outcome (T × E))
    (log : List (Call T E)) :
    (some' x).match' (spy .f rf) (fun s => spy (fun _ => .gNone) rn () s) log =
      (rf x).map (fun p => (log ++ [Call.f x], p)) ∧
    (none' : Option' T).match' (spy .f rf) (fun s => spy (fun _ => .gNone) rn () s) log =
      (rn ()).map (fun p => (log ++ [Call.gNone], p)) ∧
    (ok x : Result T E).match' (spy .f rf) (spy .gErr re) log = (rf x).map (fun p => (log ++ [Call.f x], p)) ∧
    (err e : Result T E).match' (spy .f rf) (spy .gErr re) log = (re e).map (fun p => (log ++ [Call.gErr e], p)) :=
  ⟨rfl, rfl, rfl, rfl⟩

/-- **C34 for arbitrary callbacks**: with any effects on any state. -/
theorem C34_match_any {σ : Type} (x : T) (e : E) (f : T → σ → Outcome (σ × T × E)) (g : σ → Outcome (σ × T × E))
    (g' : E → σ → Outcome (σ × T × E)) (s : σ) :
    (some' x).match' f g s = f x s ∧ (none' : Option' T).match' f g s = g s ∧
    (ok x : Result T E).match' f g' s = f x s ∧ (err e : Result T E).match' f g' s = g' e s :=
  ⟨rfl, rfl, rfl, rfl⟩

example : (some' 3).match' (spy .f fun x => .ret (x + 1, 0)) (fun s => spy (fun _ => .gNone) (fun _ => .panic) () s) [] =
    .ret ([Call.f 3], 4, (0 : Nat)) := rfl

end Verif.Functional
