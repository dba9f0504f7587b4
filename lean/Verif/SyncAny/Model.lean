/-!
# Model of `dsx/mapx/syncmapx` with keys that need not equal themselves

One goroutine, so the lock is left out (`Verif.SyncMap` has it). `eq` is `==` of the key type: floats, and structs,
arrays and interfaces holding floats, have keys with `k != k`. The Go map is a list of its entries. A lookup goes
by `==`; an assignment replaces the entry with an equal key (key and value: `reflect` and the runtime call this
"key update", and it shows with `+0` and `-0`) or adds one.
-/
namespace Verif.SyncAny

variable {K V : Type} (eq : K → K → Bool)

/-- `m[k]` on a Go map: syncmapx.go:19, 26. -/
def find (m : List (K × V)) (k : K) : Option V := (m.find? (fun e => eq e.1 k)).map (·.2)

/-- `m[k] = v` on a Go map: syncmapx.go:60. -/
def assign (m : List (K × V)) (k : K) (v : V) : List (K × V) := (k, v) :: m.filter (fun e => !eq e.1 k)

/-- `delete(m, k)` on a Go map: syncmapx.go:66. -/
def erase (m : List (K × V)) (k : K) : List (K × V) := m.filter (fun e => !eq e.1 k)

/-- The methods that change the map: syncmapx.go:58-74. -/
inductive Op (K V : Type) where
  | set (k : K) (v : V)
  | delete (k : K)
  | clear

/-- syncmapx.go:58-74 `Set`, `Delete`, `Clear`. -/
def step (m : List (K × V)) : Op K V → List (K × V)
  | .set k v => assign eq m k v
  | .delete k => erase eq m k
  | .clear => []

/-- syncmapx.go:11-15 `New` and then the calls, oldest first. -/
def run (hist : List (Op K V)) : List (K × V) := hist.foldl (step eq) []

/-- syncmapx.go:17-22 `Get`: the zero value for a missing key. -/
def get [Inhabited V] (m : List (K × V)) (k : K) : V := (find eq m k).getD default

/-- syncmapx.go:24-29 `Has`. -/
def has (m : List (K × V)) (k : K) : Bool := (find eq m k).isSome

/-- syncmapx.go:31-36 `Size`. -/
def size (m : List (K × V)) : Nat := m.length

/-- syncmapx.go:38-46 `Keys`: every entry once, in any order. -/
def Keys (m : List (K × V)) (ks : List K) : Prop := ks.Perm (m.map Prod.fst)

/-- syncmapx.go:48-56 `Values`: every entry once, in any order. -/
def Values (m : List (K × V)) (vs : List V) : Prop := vs.Perm (m.map Prod.snd)

end Verif.SyncAny
