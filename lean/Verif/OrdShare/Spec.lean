import Verif.OrdShare.Model
/-!
# The sequential ordered map
-/
namespace Verif.OrdShare
open Verif.Go Verif.Conc

variable {K V : Type} [GoOrdered K] [DecidableEq K]

/-- `es` are the entries of the map, in the order of the keys. -/
def Listed (m : K → Option V) (es : List (K × V)) : Prop :=
  es.Pairwise (fun a b => GoOrdered.lt a.1 b.1 = true) ∧ ∀ k v, (k, v) ∈ es ↔ m k = some v

/-- The callback was given `seen` of `es`: from the front, up to and including the first entry on which it said stop. -/
def StopsAt (stop : List (K × V) → Bool) (es seen : List (K × V)) : Prop :=
  (∃ rest, es = seen ++ rest ∧ (rest = [] ∨ seen ≠ [] ∧ stop seen = true)) ∧
    ∀ p e q, seen = p ++ e :: q → p ≠ [] → stop p = false

/-- Result and effect of each call on a map from keys to values. -/
def Does (m : K → Option V) (c : Call K V) (r : Res K V) (m' : K → Option V) : Prop :=
  match c with
  | .set k v => r = .unit ∧ m' = fun k' => if k' = k then some v else m k'
  | .del k => r = .unit ∧ m' = fun k' => if k' = k then none else m k'
  | .clear _ => r = .unit ∧ m' = fun _ => none
  | .get k => r = .val (m k) ∧ m' = m
  | .len => (∃ es, Listed m es ∧ r = .num es.length) ∧ m' = m
  | .keys => (∃ es, Listed m es ∧ r = .keys (es.map Prod.fst)) ∧ m' = m
  | .values => (∃ es, Listed m es ∧ r = .vals (es.map Prod.snd)) ∧ m' = m
  | .range stop => (∃ es seen, Listed m es ∧ StopsAt stop es seen ∧ r = .seen seen) ∧ m' = m

/-- The ordered map as an object. -/
def mapObj (K V : Type) [GoOrdered K] [DecidableEq K] : Obj (K → Option V) (Call K V) (Res K V) := ⟨fun _ => none, Does⟩

end Verif.OrdShare
