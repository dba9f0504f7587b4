import Verif.SklMean.Model
import Mathlib.Algebra.BigOperators.Group.Finset.Basic
import Mathlib.Data.Fintype.Pi
/-!
# The calls that search, and how many comparisons they make on average
-/
namespace Verif.SklMean
open Verif.Go Verif.Skl Verif.MapSpec

/-- The calls that search. -/
inductive Call (K V : Type) where
  | get (k : K)
  | set (k : K) (v : V)
  | del (k : K)
  | seek (k : K)

/-- The key of a call. -/
def Call.key {K V : Type} : Call K V → K
  | .get k | .set k _ | .del k | .seek k => k

variable {K V : Type} [GoOrdered K] [Inhabited K] [Inhabited V]

/-- How many comparisons of keys a call makes. -/
def comparisons (w : World K V) : Call K V → Nat
  | .get k => (SklCost.get w k).2.length
  | .set k v => (SklCost.set w k v).2.length
  | .del k => (SklCost.del w k).2.length
  | .seek k => (SklCost.seek w iterator k).2.length

/-- How many it makes after a history, if the history runs to its end. -/
def after (o : Outcome (World K V)) (c : Call K V) : Nat :=
  match o with
  | .ret w => comparisons w c
  | _ => 0

/-- The comparisons for all ways the coins can fall, added up. -/
def total (seed : BitVec 64) (hist : List (Op K V)) (c : Call K V) : Nat :=
  ∑ t : Tosses hist.length, after (run (extend t) (Skl.new seed) hist) c

end Verif.SklMean
