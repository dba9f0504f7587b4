import Verif.LazyAll.Model
/-!
# What goroutines that share lazies rely on
-/
namespace Verif.LazyAll
open LazyPanic (Prog Act Value NoPanic)

variable {V : Type}

/-- The constructor of `i`, which has got `got` so far, comes to an end: it gets finitely many lazies, whatever they give, and their
constructors come to an end, too. In particular it does not need itself. -/
inductive Ends (P : Prog V) : Nat → List (Option V) → Prop
  | ret {i got v} : P.ctor i got = .ret v → Ends P i got
  | panic {i got} : P.ctor i got = .panic → Ends P i got
  | get {i got j g} : P.ctor i got = .get j g → Ends P j [] → (∀ v, Ends P i (got ++ [some v])) →
      (g = true → Ends P i (got ++ [none])) → Ends P i got

/-- A goroutine's program that has got `got` so far gets finitely many more lazies. -/
inductive MainEnds (P : Prog V) (main : List (Option V) → Option Nat) : List (Option V) → Prop
  | stop {got} : main got = none → MainEnds P main got
  | get {got i} : main got = some i → Ends P i [] → (∀ r, MainEnds P main (got ++ [r])) → MainEnds P main got

/-- Goroutine `t` has come to the end of its program. -/
def Finished (prog : Nat → List (Option V) → Option Nat) (s : St V) (t : Nat) : Prop := ∃ got, s.thr t = [.main got] ∧ prog t got = none

/-- **C160 (full statement).** All `Get` calls of one lazy give the same: the same value, or all a panic. -/
def C160_full : Prop := ∀ (V : Type) (P : Prog V) (prog : Nat → List (Option V) → Option Nat) (s : St V), Reach P prog s →
  ∀ i r r', (i, r) ∈ s.log → (i, r') ∈ s.log → r = r'

end Verif.LazyAll
