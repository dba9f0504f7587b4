import Verif.Conc.Client
import Verif.SklShare.Model
/-!
# Iterators over a skip-list map behind a `sync.RWMutex`

Goroutines share one map. Some go through it with `for { mu.RLock(); k, v, ok := it.Next(); mu.RUnlock(); if !ok { break }; … }`, others run any
programs that use the map with the mutex (`Verif.SklShare`). The lock is held for one call at a time, so that the map changes between two `Next`
calls. An iterator belongs to its goroutine.
-/
namespace Verif.SklLoop
open Verif.Go Verif.Conc Verif.Conc.RW Verif.Skl Verif.MapSpec Verif.SklShare

variable {K V Q : Type} [GoOrdered K] [LawfulOrdered K] [DecidableEq K] [Inhabited K] [Inhabited V]

/-- The calls of the map, and `Next` of an iterator. -/
abbrev Call' (K V : Type) := Call K V ⊕ Iter

/-- What they return; of `Next` also what the iterator is then, or that it panics. -/
abbrev Res' (K V : Type) := Res K V ⊕ Outcome (Iter × Option (K × V))

/-- The map behind the mutex, with sklmapx.go:213-225 `Next` as one more call under the lock for reading. -/
def object (K V : Type) [GoOrdered K] [LawfulOrdered K] [DecidableEq K] [Inhabited K] [Inhabited V] (seed : BitVec 64) :
    Guarded (Mem K V seed) (Loc K V) (Call' K V) (Res' K V) where
  init := ⟨Skl.new seed, [], rfl⟩
  writes
    | .inl c => writes c
    | .inr _ => false
  start := .start
  iter w c a b := match c with
    | .inl c => Iterate w.1 c a b
    | .inr _ => False
  fin w c a r w' := match c, r with
    | .inl c, .inl r => Finish w c a r w'
    | .inr it, .inr o => o = Skl.next w.1 it ∧ w' = w
    | _, _ => False

/-- Where a loop is: with its iterator and what it was given so far, at its end, or in a panic. -/
inductive Loop (K V : Type) where
  | go (it : Iter) (out : List (K × V))
  | done (out : List (K × V))
  | crash

/-- The goroutines: loops, and others. -/
def withLoop (q : Client Q (Call K V) (Res K V)) : Client (Loop K V ⊕ Q) (Call' K V) (Res' K V) where
  call
    | .inl (.go it _) => some (.inr it)
    | .inl _ => none
    | .inr x => (q.call x).map .inl
  resume
    | .inl (.go _ out), .inr (.ret (it', some e)) => .inl (.go it' (out ++ [e]))
    | .inl (.go _ out), .inr (.ret (_, none)) => .inl (.done out)
    | .inl (.go _ _), .inr _ => .inl .crash
    | .inr x, .inl r => .inr (q.resume x r)
    | l, _ => l

end Verif.SklLoop
