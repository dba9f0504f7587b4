import Verif.LazyConc.Model
/-!
# What users of lazies that need other lazies rely on
-/
namespace Verif.LazyConc

variable {V : Type}

/-- `val` gives every lazy the value its definition asks for. -/
def Solves (P : Prog V) (val : Nat → V) : Prop := ∀ i, val i = P.ctor i ((P.deps i).map val)

/-- The lazies are ranked: a constructor gets lazies of lower ranks only. -/
def Ranked (P : Prog V) (rank : Nat → Nat) : Prop := ∀ i, ∀ j ∈ P.deps i, rank j < rank i

/-- Goroutine `t` has got all its lazies, with the values `vs`. -/
def Finished (s : St V) (t : Nat) (vs : List V) : Prop := s.thr t = [.main [] vs]

/-- Some goroutine can go on. -/
def CanStep (P : Prog V) (s : St V) : Prop := ∃ t s', Step P t s s'

end Verif.LazyConc
