import Verif.Conc.RW
import Verif.SyncAny.Model
import Verif.SyncMap.Model
/-!
# Model of `dsx/mapx/syncmapx` with any goroutines and any key type

`eq` is `==` of the key type and need not be reflexive (floats). The Go map is the list of its entries as in
`Verif.SyncAny`; the same entry can occur twice. The methods with their locks are those of `Verif.SyncMap`; the interleaving is
that of `Verif.Conc.RW`. A `range` loop visits every entry once, one per step, in any order.
-/
namespace Verif.SyncKey
open Verif.Conc Verif.SyncMap Verif.SyncAny

variable {K V : Type} (eq : K → K → Bool)

/-- One round of the `range` loops, syncmapx.go:41-43, 51-53: some entry not visited yet. -/
def iter (m : List (K × V)) (c : Call K V) (acc acc' : List (K × V)) : Prop :=
  (c = .keys ∨ c = .values) ∧ ∃ e, acc' = acc ++ [e] ∧ (acc ++ [e]).Subperm m

/-- The last access of a method: its result and the map after it. A `range` loop ends when all entries were visited. -/
def fin [Inhabited V] (m : List (K × V)) (c : Call K V) (acc : List (K × V)) (r : Res K V) (m' : List (K × V)) : Prop :=
  match c with
  | .get k => r = .val ((find eq m k).getD default) ∧ m' = m        -- syncmapx.go:19
  | .has k => r = .bool (find eq m k).isSome ∧ m' = m               -- syncmapx.go:26
  | .size => r = .num m.length ∧ m' = m                             -- syncmapx.go:33
  | .keys => acc.Perm m ∧ r = .keys (acc.map (·.1)) ∧ m' = m        -- syncmapx.go:40-43
  | .values => acc.Perm m ∧ r = .vals (acc.map (·.2)) ∧ m' = m      -- syncmapx.go:50-53
  | .set k v => r = .unit ∧ m' = assign eq m k v                    -- syncmapx.go:60
  | .delete k => r = .unit ∧ m' = erase eq m k                      -- syncmapx.go:66
  | .clear => r = .unit ∧ m' = []                                   -- syncmapx.go:72

/-- syncmapx.go:6-74. -/
def syncmap [Inhabited V] : RW.Guarded (List (K × V)) (List (K × V)) (Call K V) (Res K V) where
  init := []
  writes c := mode c = .write
  start := []
  iter := iter
  fin := fin eq

/-- States of goroutines using one map. -/
abbrev St (K V : Type) := RW.St (List (K × V)) (List (K × V)) (Call K V) (Res K V)

end Verif.SyncKey
