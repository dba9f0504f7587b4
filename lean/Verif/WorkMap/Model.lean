import Verif.Conc.Many
import Verif.HandOut.Lemmas
import Verif.SyncKey.Lemmas
/-!
# A work list and a map of results

Goroutines share two objects: a slice stack (slicex/stackx/stackx.go:11-43) behind a mutex, which holds the jobs, and a concurrent map (syncmapx.go:6-74), which
has a mutex of its own, for the results. The calls with all their steps are those of `Verif.HandOut` and `Verif.SyncKey`, the interleaving is that of
`Verif.Conc.Many`.
-/
namespace Verif.WorkMap
open Verif.Conc Verif.Conc.RW

/-- The two objects. -/
inductive Which where
  | jobs
  | results
  deriving DecidableEq

variable (K V : Type)

@[reducible] def Mem : Which → Type
  | .jobs => SliceC.St K
  | .results => List (K × V)

@[reducible] def Loc : Which → Type
  | .jobs => Unit
  | .results => List (K × V)

@[reducible] def Call : Which → Type
  | .jobs => Dsx.SOp K
  | .results => SyncMap.Call K V

@[reducible] def Res : Which → Type
  | .jobs => Linked.Res K
  | .results => SyncMap.Res K V

variable {K V} [Inhabited K] [Inhabited V]

/-- Both with their locks; `h` is the memory in which the stack is made, `eq` the `==` of the keys. -/
def objects (h : Go.Hp K) (eq : K → K → Bool) : ∀ i, Guarded (Mem K V i) (Loc K V i) (Call K V i) (Res K V i)
  | .jobs => HandOut.sliceStack h
  | .results => SyncKey.syncmap eq

/-- Local states: `feed ks` has the jobs `ks` to put in and then works; `store k` has taken `k`; `stop` found nothing to do. -/
inductive Worker (K : Type) where
  | feed (ks : List K)
  | store (k : K)
  | stop

/-- `for _, k := range ks { mu.Lock(); st.Push(k); mu.Unlock() }; for { mu.Lock(); k, ok := st.Pop(); mu.Unlock(); if !ok { return }; m.Set(k, f(k)) }`. -/
def worker (f : K → V) : Client (Worker K) (Σ i, Call K V i) (Σ i, Res K V i) where
  call
    | .feed (k :: _) => some ⟨.jobs, .push k⟩
    | .feed [] => some ⟨.jobs, .pop⟩
    | .store k => some ⟨.results, .set k (f k)⟩
    | .stop => none
  resume
    | .feed (_ :: ks), _ => .feed ks
    | .feed [], ⟨.jobs, .val k⟩ => .store k
    | .feed [], _ => .stop
    | .store _, _ => .feed []
    | .stop, _ => .stop

abbrev St (K V : Type) := Many.MSt (Mem K V) (Loc K V) (Call K V) (Res K V) (Worker K)

end Verif.WorkMap
