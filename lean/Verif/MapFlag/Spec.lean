import Verif.MapFair.Spec
import Verif.SyncKey.Spec
/-!
# C176, the statement: a concurrent map as a place for signals

Goroutines store under a key when they are done (syncmapx.go:58-61), others ask for the key again and again (syncmapx.go:17-27). The executions are those of C175.
-/
namespace Verif.MapFlag
open Verif.Conc Verif.SyncAny
open Verif.SyncMap (Call Res)

variable {K V : Type}

/-- In the history nobody takes the key away, and what is stored under it satisfies `P`. -/
structure Kept (eq : K → K → Bool) (k : K) (P : V → Prop) (h : List (Event (Call K V) (Res K V))) : Prop where
  delete : ∀ id k', Event.inv id (.delete k') ∈ h → eq k k' = false
  clear : ∀ id, Event.inv id .clear ∉ h
  set : ∀ id k' v, Event.inv id (.set k' v) ∈ h → eq k k' = true → P v

/-- The results of a call that asks for `k` when it is there. -/
def Shows (k : K) (P : V → Prop) : Call K V → Res K V → Prop
  | .has k', r => k' = k → r = .bool true
  | .get k', r => k' = k → ∃ v, P v ∧ r = .val v
  | _, _ => True

/-- From moment `N` on every call that asks for `k` finds it. -/
def SeenFrom (k : K) (P : V → Prop) (hist : Nat → List (Event (Call K V) (Res K V))) (N : Nat) : Prop :=
  ∀ m id c r, Event.inv id c ∉ hist N → Event.inv id c ∈ hist m → Event.ret id r ∈ hist m → Shows k P c r

end Verif.MapFlag
