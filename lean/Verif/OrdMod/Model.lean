import Verif.Ord.Props
/-!
# Model of `ordmapx.OrdMap.Range` with a callback that uses the map

The callback may read the map and call its methods. The updates it makes in one call are a list; since all of the code is
deterministic, the list is a function of the callback's own state, of the map and of the arguments.
-/
namespace Verif.OrdMod
open Verif.Go Verif.Skl Verif.MapSpec Verif.Ord

/-- A callback: from its state, the map, key and value to its new state, the updates it makes and `stop`. -/
abbrev Callback (σ K V : Type) := σ → OrdMap K V → K → V → σ × List (Op K V) × Bool

section
variable {K V σ : Type} [GoOrdered K] [Inhabited K] [Inhabited V]

/-- ordmapx.go:65-76 `Range`; the first argument is fuel: `hang` means that many rounds were not enough. -/
def rangeLoop (f : Callback σ K V) : Nat → Iter → OrdMap K V → σ → Outcome (σ × OrdMap K V)
  | 0, _, _, _ => .hang
  | fuel + 1, it, o, s =>
    (Skl.next o.skl it).bind fun
      | (_, none) => .ret (s, o)
      | (it', some (k, _)) =>
        let (s', ops, stop) := f s o k ((o.m k).getD default)
        (run o ops).bind fun o' => if stop then .ret (s', o') else rangeLoop f fuel it' o' s'

def range (f : Callback σ K V) (fuel : Nat) (o : OrdMap K V) (s : σ) : Outcome (σ × OrdMap K V) :=
  rangeLoop f fuel Skl.iterator o s

end
end Verif.OrdMod
