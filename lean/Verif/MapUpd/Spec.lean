import Verif.MapUpd.Model
/-!
# Updates one after another
-/
namespace Verif.MapUpd

section
variable {K V : Type} [DecidableEq K] [Inhabited V]

/-- One update of a map without anybody else; a missing entry counts as the zero value. -/
def apply (m : K → Option V) (j : Job K V) : K → Option V := fun k => if k = j.key then some (j.f ((m k).getD default)) else m k

/-- Updates one after another, each by some goroutine. -/
def applyAll (m : K → Option V) (log : List (Nat × Job K V)) : K → Option V := log.foldl (fun m e => apply m e.2) m

/-- The updates of one goroutine in a log. -/
def logOf (log : List (Nat × Job K V)) (t : Nat) : List (Job K V) := (log.filter (fun e => decide (e.1 = t))).map (·.2)

/-- The number of updates of a key in a log. -/
def hits (log : List (Nat × Job K V)) (k : K) : Nat := (log.filter (fun e => decide (e.2.key = k))).length

/-- All goroutines have made their updates. -/
def Done (s : St K V) : Prop := ∀ t, s.thr t = ⟨[], .idle⟩

/-- The map is as if the goroutines' updates had been made one after another, in some order that keeps that of each goroutine. -/
def Serial (m : K → Option V) (prog : Nat → List (Job K V)) (m' : K → Option V) : Prop :=
  ∃ log : List (Nat × Job K V), (∀ t, logOf log t = prog t) ∧ m' = applyAll m log

/-- What updates of one key make of its entry. -/
def entry (o : Option V) (js : List (Job K V)) : Option V := js.foldl (fun o j => some (j.f (o.getD default))) o

/-- Only goroutine `t` updates the key. -/
def Own (prog : Nat → List (Job K V)) (t : Nat) (k : K) : Prop := ∀ u, u ≠ t → ∀ j ∈ prog u, j.key ≠ k

/-- Every key is used by one goroutine at most. -/
def Apart (prog : Nat → List (Job K V)) : Prop := ∀ t u, t ≠ u → ∀ j ∈ prog t, ∀ i ∈ prog u, j.key ≠ i.key

end

/-- **C165 (full statement).** When all goroutines have finished, no update is lost. -/
def C165_full : Prop := ∀ (K V : Type) [DecidableEq K] [Inhabited V] (locked : Bool) (m : K → Option V) (prog : Nat → List (Job K V)) (s : St K V),
  Reach locked m prog s → Done s → Serial m prog s.m

end Verif.MapUpd
