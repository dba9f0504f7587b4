import Verif.SklMean.Spec
import Mathlib.Data.Finset.Card
/-!
# How often a call on the skip-list map makes many comparisons

The model is that of `Verif.SklMean`: the map of `Verif.Skl` with coins in place of the generator.
-/
namespace Verif.SklTail
open Verif.Go Verif.Skl Verif.MapSpec Verif.SklMean

variable {K V : Type} [GoOrdered K] [Inhabited K] [Inhabited V]

/-- In how many ways the coins can fall such that the call makes at least `b` comparisons after the history. -/
def slow (seed : BitVec 64) (hist : List (Op K V)) (c : Call K V) (b : Nat) : Nat :=
  (Finset.univ.filter fun t : Tosses hist.length => b ≤ after (run (extend t) (Skl.new seed) hist) c).card

/-- The search of an update. -/
def callOf : Op K V → Option (Call K V)
  | .set k v => some (.set k v)
  | .del k => some (.del k)
  | .clear _ => none

/-- Some update of the history makes at least `b` comparisons when it is its turn. -/
def SomeSlow (t : Nat → Coins) (seed : BitVec 64) (hist : List (Op K V)) (b : Nat) : Prop :=
  ∃ i op c, hist[i]? = some op ∧ callOf op = some c ∧ b ≤ after (run t (Skl.new seed) (hist.take i)) c

noncomputable instance (t : Nat → Coins) (seed : BitVec 64) (hist : List (Op K V)) (b : Nat) : Decidable (SomeSlow t seed hist b) := Classical.dec _

/-- In how many ways the coins can fall such that not all updates of the history make fewer than `b` comparisons. -/
noncomputable def someSlow (seed : BitVec 64) (hist : List (Op K V)) (b : Nat) : Nat :=
  (Finset.univ.filter fun t : Tosses hist.length => SomeSlow (extend t) seed hist b).card

end Verif.SklTail
