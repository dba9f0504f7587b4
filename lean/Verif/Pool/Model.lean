import Verif.Prelude
/-!
# Model of `syncx/syncpoolx/syncpoolx.go`

Objects are numbers. `sync.Pool` is a collection of objects from which `Get` takes any one or none at
all, and from which the garbage collector removes objects at any time. Every method is one step, as
`sync.Pool` is safe for concurrent use. `Init` must not run concurrently with the others (as its
comment says) and is here a step like the others.

Callers keep the rule of the package: they put only objects they hold, and each `New` function and
each caller's own allocation gives an object not seen before.
-/
namespace Verif.Pool

/-- The pool, who holds which object, and (observed only) the objects allocated so far and those ever
put. -/
structure St where
  hasNew : Bool
  stored : List Nat
  held : List (Nat × Nat)
  known : List Nat
  puts : List Nat

/-- The zero `Pool` (syncpoolx.go:8-10). -/
def init : St := ⟨false, [], [], [], []⟩

/-- What `Get` did. -/
inductive Res where
  | obj (x : Nat)
  | panic

/-- syncpoolx.go:25-27 `Get` by caller `g`: `pool.Get()` gives a stored object, or what `New`
returns, or nil if there is no `New`, and then the type assertion panics. `fresh` tells whether `New`
was called. -/
inductive Get (g : Nat) : St → St → Res → (fresh : Bool) → Prop where
  | stored (s : St) (x : Nat) : x ∈ s.stored →
      Get g s { s with stored := s.stored.erase x, held := (g, x) :: s.held } (.obj x) false
  | new (s : St) (x : Nat) : s.hasNew = true → x ∉ s.known →
      Get g s { s with known := x :: s.known, held := (g, x) :: s.held } (.obj x) true
  | nil (s : St) : s.hasNew = false → Get g s s .panic false

inductive Step : St → St → Prop where
  | init (s : St) : Step s { s with hasNew := true }  -- syncpoolx.go:16-20 `Init`
  | get {g : Nat} {s s' : St} {r : Res} {b : Bool} : Get g s s' r b → Step s s'
  | put (s : St) (g x : Nat) : (g, x) ∈ s.held →      -- syncpoolx.go:34-36 `Put`
      Step s { s with held := s.held.erase (g, x), stored := x :: s.stored, puts := x :: s.puts }
  | own (s : St) (g x : Nat) : x ∉ s.known →          -- a caller allocates an object itself
      Step s { s with known := x :: s.known, held := (g, x) :: s.held }
  | drop (s : St) (x : Nat) : Step s { s with stored := s.stored.erase x }  -- garbage collection

inductive Reach : St → Prop where
  | init : Reach init
  | step {s s' : St} : Reach s → Step s s' → Reach s'

end Verif.Pool
