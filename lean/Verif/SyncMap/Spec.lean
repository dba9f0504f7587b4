import Verif.SyncMap.Model
/-!
# The sequential map object

States are partial functions; the results of the calls are the meaning of the methods.
-/
namespace Verif.SyncMap
open Verif.Conc

variable {K V : Type} [DecidableEq K] [Inhabited V]

/-- `ks` lists the keys of `s`, each once. -/
def KeysOf (s : K → Option V) (ks : List K) : Prop := ks.Nodup ∧ ∀ k, k ∈ ks ↔ (s k).isSome

/-- Result and new state of each call on a sequential map. -/
def mapStep (s : K → Option V) (c : Call K V) (r : Res K V) (s' : K → Option V) : Prop :=
  match c with
  | .get k => r = .val ((s k).getD default) ∧ s' = s
  | .has k => r = .bool (s k).isSome ∧ s' = s
  | .size => (∃ ks, KeysOf s ks ∧ r = .num ks.length) ∧ s' = s
  | .keys => (∃ ks, KeysOf s ks ∧ r = .keys ks) ∧ s' = s
  | .values => (∃ ks vs, KeysOf s ks ∧ vs.map some = ks.map s ∧ r = .vals vs) ∧ s' = s
  | .set k v => r = .unit ∧ s' = fun k' => if k' = k then some v else s k'
  | .delete k => r = .unit ∧ s' = fun k' => if k' = k then none else s k'
  | .clear => r = .unit ∧ s' = fun _ => none

/-- The sequential map, initially empty. -/
def mapObj : Obj (K → Option V) (Call K V) (Res K V) := ⟨fun _ => none, mapStep⟩

end Verif.SyncMap
