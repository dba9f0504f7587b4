import Verif.Conc.Client
import Verif.SyncKey.Spec
/-!
# A cache in a concurrent map

The program of a goroutine that remembers the results of `f` in a `syncmapx.Map` shared with others:
`if m.Has(k) { return m.Get(k) }; v := f(k); m.Set(k, v); return v`; and the program with one call less:
`if v := m.Get(k); v != zero { return v }; v := f(k); m.Set(k, v); return v`. Entries may be dropped with `Delete` and `Clear`.
The calls with their locks are those of `Verif.SyncKey` (syncmapx.go:6-74).
-/
namespace Verif.MapCache
open Verif.Conc Verif.Conc.RW Verif.SyncMap

/-- What the goroutine is asked for: the value for a key, to forget a key, to forget everything. -/
inductive Req (K : Type) where
  | look (k : K)
  | drop (k : K)
  | clear

/-- Where the goroutine is in a request for a value: before the first call; it found the key; it did not, and has computed the value. -/
inductive At where
  | start
  | hit
  | miss

/-- The local state: the requests that are not answered, where it is, the values returned, the keys for which `f` was computed. -/
structure Loc (K V : Type) where
  todo : List (Req K)
  ph : At
  res : List V
  comp : List K

variable {K V : Type}

/-- The requests of one goroutine at the start. -/
def fresh (rs : List (Req K)) : Loc K V := ⟨rs, .start, [], []⟩

/-- The next call. -/
def call (f : K → V) (q : Loc K V) : Option (Call K V) :=
  match q.todo, q.ph with
  | [], _ => none
  | .look k :: _, .start => some (.has k)
  | .look k :: _, .hit => some (.get k)
  | .look k :: _, .miss => some (.set k (f k))
  | .drop k :: _, _ => some (.delete k)
  | .clear :: _, _ => some .clear

/-- What the result of the call does. -/
def resume (f : K → V) (q : Loc K V) (r : Res K V) : Loc K V :=
  match q.todo, q.ph, r with
  | .look k :: _, .start, .bool b => if b then { q with ph := .hit } else { q with ph := .miss, comp := q.comp ++ [k] }
  | .look _ :: rs, .hit, .val v => { q with todo := rs, ph := .start, res := q.res ++ [v] }
  | .look k :: rs, .miss, _ => { q with todo := rs, ph := .start, res := q.res ++ [f k] }
  | .drop _ :: rs, _, _ => { q with todo := rs }
  | .clear :: rs, _, _ => { q with todo := rs }
  | _, _, _ => q

/-- The cache with `Has` and `Get`. -/
def cache (f : K → V) : Client (Loc K V) (Call K V) (Res K V) := ⟨call f, resume f⟩

/-- The next call when only `Get` is used. -/
def call1 (f : K → V) (q : Loc K V) : Option (Call K V) :=
  match q.todo, q.ph with
  | [], _ => none
  | .look k :: _, .miss => some (.set k (f k))
  | .look k :: _, _ => some (.get k)
  | .drop k :: _, _ => some (.delete k)
  | .clear :: _, _ => some .clear

def resume1 [Inhabited V] [DecidableEq V] (f : K → V) (q : Loc K V) (r : Res K V) : Loc K V :=
  match q.todo, q.ph, r with
  | .look k :: rs, .miss, _ => { q with todo := rs, ph := .start, res := q.res ++ [f k] }
  | .look k :: rs, _, .val v =>
    if v = default then { q with ph := .miss, comp := q.comp ++ [k] } else { q with todo := rs, ph := .start, res := q.res ++ [v] }
  | .drop _ :: rs, _, _ => { q with todo := rs }
  | .clear :: rs, _, _ => { q with todo := rs }
  | _, _, _ => q

/-- The cache with `Get` alone. -/
def cache1 [Inhabited V] [DecidableEq V] (f : K → V) : Client (Loc K V) (Call K V) (Res K V) := ⟨call1 f, resume1 f⟩

end Verif.MapCache
