import Verif.SklLoop.Model
import Verif.SklWeak.Spec
/-!
# What a loop over a changing map finds
-/
namespace Verif.SklLoop
open Verif.Go Verif.Conc Verif.Conc.RW Verif.Skl Verif.MapSpec Verif.SklShare

variable {K V Q : Type} [GoOrdered K] [LawfulOrdered K] [DecidableEq K] [Inhabited K] [Inhabited V]

/-- How a call changes the map. -/
def opOf : Option (Call' K V) → List (Op K V)
  | some (.inl (.set k v)) => [.set k v]
  | some (.inl (.del k)) => [.del k]
  | some (.inl (.clear s)) => [.clear s]
  | _ => []

/-- Whole calls of the goroutines, one after the other; `ops` are those that change the map. -/
inductive Calls {seed : BitVec 64} (q : Client Q (Call K V) (Res K V)) (a : Mem K V seed × (Nat → Loop K V ⊕ Q)) :
    List (Op K V) → Mem K V seed × (Nat → Loop K V ⊕ Q) → Prop where
  | none : Calls q a [] a
  | more {ops b c t} : Calls q a ops b → AStep (seqObj (object K V seed)) (withLoop q) t b c →
      Calls q a (ops ++ opOf ((withLoop q).call (b.2 t))) c

/-- At the beginning loops have new iterators. -/
def Fresh (l : Nat → Loop K V ⊕ Q) : Prop := ∀ t x, l t = .inl x → x = .go iterator []

/-- The others do not call `Clear` (C110 is about that). -/
def NoClear (q : Client Q (Call K V) (Res K V)) : Prop := ∀ x s, q.call x ≠ some (.clear s)

/-- No call changes what is stored under `k`. -/
def Untouched (k : K) (ops : List (Op K V)) : Prop := (∀ v, .set k v ∉ ops) ∧ .del k ∉ ops ∧ ∀ s, .clear s ∉ ops

end Verif.SklLoop
