import Verif.Skl.Model
/-!
# Model of `dsx/mapx/ordmapx`

A Go map plus a skip list of its keys. The Go map is a partial function; its key comparison is the
key type's `==`. (A Go map with NaN keys behaves differently; the theorems assume a total order.)
-/
namespace Verif.Ord
open Verif.Go Verif.Skl

section
variable {K V : Type} [GoOrdered K]

/-- ordmapx.go:8-11 `OrdMap`. -/
structure OrdMap (K V : Type) where
  m : K → Option V
  skl : World K Unit

/-- `m[key] = value` on a Go map. -/
def assign (m : K → Option V) (key : K) (value : V) : K → Option V :=
  fun k => if GoOrdered.eq k key then some value else m k

/-- `delete(m, key)` on a Go map. -/
def erase (m : K → Option V) (key : K) : K → Option V :=
  fun k => if GoOrdered.eq k key then none else m k

/-- ordmapx.go:20-22 `Len`. -/
def len (o : OrdMap K V) : Nat := Skl.len o.skl

/-- ordmapx.go:24-27 `Get`; `(zero, false)` is `none`. -/
def get (o : OrdMap K V) (key : K) : Option V := o.m key

/-- ordmapx.go:29-34 `Set`. -/
def set (o : OrdMap K V) (key : K) (value : V) : Outcome (OrdMap K V) :=
  if (o.m key).isNone then
    (Skl.set o.skl key ()).bind fun w => .ret { m := assign o.m key value, skl := w }
  else .ret { o with m := assign o.m key value }

/-- ordmapx.go:36-41 `Del`. -/
def del (o : OrdMap K V) (key : K) : Outcome (OrdMap K V) :=
  if (o.m key).isSome then
    (Skl.del o.skl key).bind fun (w, _) => .ret { m := erase o.m key, skl := w }
  else .ret o

variable [Inhabited K] [Inhabited V]

/-- ordmapx.go:13-18 `New`; `seed` is what `root_next` returned. -/
def new (seed : BitVec 64) : OrdMap K V := { m := fun _ => none, skl := Skl.new seed }

/-- ordmapx.go:43-46 `Clear`. -/
def clear (o : OrdMap K V) (seed : BitVec 64) : OrdMap K V :=
  { m := fun _ => none, skl := Skl.clear o.skl seed }

/-- ordmapx.go:48-50 `Keys`. -/
def keys (o : OrdMap K V) : Outcome (List K) := Skl.keys o.skl

/-- ordmapx.go:52-63, the loop of `Values`; the first argument is fuel. `m.m[k]` yields the zero
value for a missing key. -/
def valuesLoop (o : OrdMap K V) : Nat → Iter → List V → Outcome (List V)
  | 0, _, _ => .hang
  | fuel + 1, it, acc =>
    (Skl.next o.skl it).bind fun
      | (_, none) => .ret acc
      | (it', some (k, _)) => valuesLoop o fuel it' (acc ++ [(o.m k).getD default])

/-- ordmapx.go:52-63 `Values`. -/
def values (o : OrdMap K V) : Outcome (List V) := valuesLoop o (o.skl.heap.brk + 1) Skl.iterator []

/-- ordmapx.go:65-76, the loop of `Range`. The callback acts on a state `σ` and says whether to stop;
callbacks that modify the map itself are not modelled here. -/
def rangeLoop {σ : Type} (o : OrdMap K V) (f : σ → K → V → σ × Bool) : Nat → Iter → σ → Outcome σ
  | 0, _, _ => .hang
  | fuel + 1, it, s =>
    (Skl.next o.skl it).bind fun
      | (_, none) => .ret s
      | (it', some (k, _)) =>
        let (s', stop) := f s k ((o.m k).getD default)
        if stop then .ret s' else rangeLoop o f fuel it' s'

/-- ordmapx.go:65-76 `Range`. -/
def range {σ : Type} (o : OrdMap K V) (f : σ → K → V → σ × Bool) (s : σ) : Outcome σ :=
  rangeLoop o f (o.skl.heap.brk + 1) Skl.iterator s

end
end Verif.Ord
