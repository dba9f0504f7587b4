import Verif.Conc.Client
import Verif.SyncKey.Spec
/-!
# A loop over the keys of a concurrent map

`for _, k := range m.Keys() { out = append(out, entry{k, m.Get(k)}) }` by some goroutines, while others run any program `q` that uses the map.
The calls with their locks are those of `Verif.SyncKey` (syncmapx.go:6-74).
-/
namespace Verif.MapLoop
open Verif.Conc Verif.Conc.RW Verif.SyncMap

/-- Where the loop is: before `Keys`, or at the keys that are left, with what was found so far. -/
inductive Loop (K V : Type) where
  | start
  | go (todo : List K) (out : List (K × V))

variable {K V Q : Type}

/-- The goroutines: loops, and others. -/
def withLoop (q : Client Q (Call K V) (Res K V)) : Client (Loop K V ⊕ Q) (Call K V) (Res K V) where
  call
    | .inl .start => some .keys
    | .inl (.go [] _) => none
    | .inl (.go (k :: _) _) => some (.get k)
    | .inr x => q.call x
  resume
    | .inl .start, .keys ks => .inl (.go ks [])
    | .inl (.go (k :: ks) out), .val v => .inl (.go ks (out ++ [(k, v)]))
    | .inr x, r => .inr (q.resume x r)
    | l, _ => l

/-- Goroutines that make the calls of a list one after the other. -/
def calls : Client (List (Call K V)) (Call K V) (Res K V) where
  call cs := cs.head?
  resume cs _ := cs.tail

end Verif.MapLoop
