import Verif.Conc.RW
import Verif.Ord.Props
/-!
# Model of a `dsx/mapx/ordmapx` map behind a `sync.RWMutex`

Goroutines share one ordered map and hold the mutex for reading around `Get`, `Len`, `Keys`, `Values` and `Range`, and for writing around
`Set`, `Del` and `Clear`. The map is that of `Verif.Ord`: a Go map and a skip list of its keys. `Keys`, `Values` and `Range` go through
the skip list node by node, one step for each round of their loops, and look each key up in the Go map in the same round; the steps of
different goroutines interleave. The writing calls, which run alone, are one step. The callback of `Range` decides by what it was
given so far; callbacks that call the map are not in this model (`Verif.OrdMod` has them for one goroutine).
-/
namespace Verif.OrdShare
open Verif.Go Verif.Conc Verif.Skl Verif.Ord Verif.MapSpec

variable {K V : Type} [GoOrdered K] [LawfulOrdered K] [DecidableEq K] [Inhabited K] [Inhabited V]

/-- The memory some calls on a new map lead to. -/
def Mem (K V : Type) [GoOrdered K] [LawfulOrdered K] [DecidableEq K] [Inhabited K] [Inhabited V] (seed : BitVec 64) : Type :=
  { o : OrdMap K V // ∃ hist, Ord.run (Ord.new seed) hist = .ret o }

/-- The calls. The callback of `range` stops on `stop`. -/
inductive Call (K V : Type) where
  | set (k : K) (v : V)
  | del (k : K)
  | clear (seed : BitVec 64)
  | get (k : K)
  | len
  | keys
  | values
  | range (stop : List (K × V) → Bool)

/-- What they return; for `Range`, what the callback was given. -/
inductive Res (K V : Type) where
  | unit
  | val (v : Option V)
  | num (n : Nat)
  | keys (ks : List K)
  | vals (vs : List V)
  | seen (es : List (K × V))

/-- The local variables of a loop: what was collected or given to the callback, the iterator, and whether the callback said stop. -/
inductive Loc (K V : Type) where
  | start
  | list (acc : List (K × V)) (it : Iter) (stopped : Bool)

/-- What the callback tells after it was given `acc`; `Keys` and `Values` have none. -/
def tells : Call K V → List (K × V) → Bool
  | .range stop, acc => stop acc
  | _, _ => false

/-- The calls with a loop. -/
def loops : Call K V → Prop
  | .keys => True
  | .values => True
  | .range _ => True
  | _ => False

/-- One round of a loop: ordmapx.go:55-61 (`Values`), 67-75 (`Range`), sklmapx.go:148-154 (`Keys`; the lookup in the Go map, which `Keys`
does not make, reads only and its value is dropped in `Finish`). -/
inductive Iterate (o : OrdMap K V) : Call K V → Loc K V → Loc K V → Prop where
  | init {c} : loops c → Iterate o c .start (.list [] iterator false)
  | next {c acc it it' k} : loops c → Skl.next o.skl it = .ret (it', some (k, ())) →
      Iterate o c (.list acc it false)
        (.list (acc ++ [(k, (o.m k).getD default)]) it' (tells c (acc ++ [(k, (o.m k).getD default)])))

/-- A loop is over: the callback said stop, or there is no next node. -/
def Over (o : OrdMap K V) (it : Iter) (stopped : Bool) : Prop := stopped = true ∨ ∃ it', Skl.next o.skl it = .ret (it', none)

/-- The rest of a call and what it returns. ordmapx.go:20-76. -/
inductive Finish {seed : BitVec 64} (o : Mem K V seed) : Call K V → Loc K V → Res K V → Mem K V seed → Prop where
  | set {k v o'} : Ord.set o.1 k v = .ret o'.1 → Finish o (.set k v) .start .unit o'
  | del {k o'} : Ord.del o.1 k = .ret o'.1 → Finish o (.del k) .start .unit o'
  | clear {s o'} : o'.1 = Ord.clear o.1 s → Finish o (.clear s) .start .unit o'
  | get {k} : Finish o (.get k) .start (.val (Ord.get o.1 k)) o
  | len : Finish o .len .start (.num (Ord.len o.1)) o
  | keys {acc it b} : Over o.1 it b → Finish o .keys (.list acc it b) (.keys (acc.map Prod.fst)) o
  | values {acc it b} : Over o.1 it b → Finish o .values (.list acc it b) (.vals (acc.map Prod.snd)) o
  | range {stop acc it b} : Over o.1 it b → Finish o (.range stop) (.list acc it b) (.seen acc) o

/-- Which calls are made under the lock for writing. -/
def writes : Call K V → Bool
  | .set _ _ => true
  | .del _ => true
  | .clear _ => true
  | _ => false

/-- The map behind the mutex. -/
def shared (K V : Type) [GoOrdered K] [LawfulOrdered K] [DecidableEq K] [Inhabited K] [Inhabited V] (seed : BitVec 64) :
    RW.Guarded (Mem K V seed) (Loc K V) (Call K V) (Res K V) where
  init := ⟨Ord.new seed, [], rfl⟩
  writes := writes
  start := .start
  iter := fun o => Iterate o.1
  fin := Finish

abbrev St (K V : Type) [GoOrdered K] [LawfulOrdered K] [DecidableEq K] [Inhabited K] [Inhabited V] (seed : BitVec 64) :=
  RW.St (Mem K V seed) (Loc K V) (Call K V) (Res K V)

/-- The first half of `Set` for a key that is not there, ordmapx.go:30-32: the key gets into the skip list. -/
def setIndex (o : OrdMap K V) (k : K) : Outcome (OrdMap K V) := (Skl.set o.skl k ()).bind fun w => .ret { o with skl := w }

/-- The second half, ordmapx.go:33: the value gets into the Go map. -/
def setValue (o : OrdMap K V) (k : K) (v : V) : OrdMap K V := { o with m := assign o.m k v }

end Verif.OrdShare
