import Verif.LazyPanic.Model
/-!
# What users of lazies rely on: a lazy has a value
-/
namespace Verif.LazyPanic

variable {V : Type}

mutual
/-- The value of lazy `i` by its definition: that of its constructor, given the values of the lazies it gets.
Nothing panics on the way. -/
inductive Value (P : Prog V) : Nat → V → Prop
  | mk {i v} : ValueFrom P i [] v → Value P i v

inductive ValueFrom (P : Prog V) : Nat → List (Option V) → V → Prop
  | ret {i got v} : P.ctor i got = .ret v → ValueFrom P i got v
  | get {i got j g w v} : P.ctor i got = .get j g → Value P j w → ValueFrom P i (got ++ [some w]) v → ValueFrom P i got v
end

/-- No constructor panics of itself. -/
def NoPanic (P : Prog V) : Prop := ∀ i got, P.ctor i got ≠ .panic

end Verif.LazyPanic
