import Verif.SyncKey.Model
import Verif.SyncAny.Spec
/-!
# The sequential object

Its state is the history of the calls that change the map. What the methods return is said by `Verif.SyncAny`'s `lookup` and
`unreachable`.
-/
namespace Verif.SyncKey
open Verif.Conc Verif.SyncMap Verif.SyncAny

variable {K V : Type} (eq : K → K → Bool)

/-- `es` are the entries after the history, in some order: one for each key that is present (keys that are `==` being
one key), and one for each `Set` of a key that does not equal itself. -/
def Entries (hist : List (Op K V)) (es : List (K × V)) : Prop :=
  (∀ k, (es.filter (fun e => eq e.1 k)).map Prod.snd = (lookup eq hist k).toList) ∧
  (es.filter (fun e => !eq e.1 e.1)).Perm (unreachable eq hist)

/-- Result and new history of each call. -/
def histStep [Inhabited V] (h : List (Op K V)) (c : Call K V) (r : Res K V) (h' : List (Op K V)) : Prop :=
  match c with
  | .get k => r = .val ((lookup eq h k).getD default) ∧ h' = h
  | .has k => r = .bool (lookup eq h k).isSome ∧ h' = h
  | .size => (∃ es, Entries eq h es ∧ r = .num es.length) ∧ h' = h
  | .keys => (∃ es, Entries eq h es ∧ r = .keys (es.map Prod.fst)) ∧ h' = h
  | .values => (∃ es, Entries eq h es ∧ r = .vals (es.map Prod.snd)) ∧ h' = h
  | .set k v => r = .unit ∧ h' = h ++ [.set k v]
  | .delete k => r = .unit ∧ h' = h ++ [.delete k]
  | .clear => r = .unit ∧ h' = h ++ [.clear]

/-- The map for keys with any `==`. -/
def histObj [Inhabited V] : Obj (List (Op K V)) (Call K V) (Res K V) := ⟨[], histStep eq⟩

end Verif.SyncKey
