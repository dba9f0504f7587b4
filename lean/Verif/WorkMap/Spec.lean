import Verif.WorkMap.Model
import Mathlib.Algebra.BigOperators.Group.Finset.Basic
import Mathlib.Algebra.Order.Group.Multiset
/-!
# What the workers promise
-/
namespace Verif.WorkMap
open Verif.Conc Verif.SyncAny

variable {K V : Type}

/-- The jobs a goroutine has still to put in. -/
def Worker.jobs : Worker K → Multiset K
  | .feed ks => ks
  | _ => 0

/-- The jobs of all goroutines together. -/
def allJobs (N : Nat) (l : Nat → Worker K) : Multiset K := ∑ t ∈ Finset.range N, (l t).jobs

/-- The map was filled by one `Set` for each of the jobs `js`, with its result. -/
def Stored (f : K → V) (hist : List (Op K V)) (js : Multiset K) : Prop := ∃ ks : List K, (ks : Multiset K) = js ∧ hist = ks.map fun k => .set k (f k)

end Verif.WorkMap
