import Verif.Prelude
/-!
# Model of `typex/convx/convx.go` in concurrent use, with converters that use the registry

Goroutines are numbered; each runs a list of calls. A converter is a number `c`; `body c` is the list of
calls of the registry that it makes when it runs, so calls nest. What a conversion returns is the matter of
`Verif.ConvReg`; here a call of `Into` only looks a converter up and runs it. The key of a registration is
one value (a pair of types, convx.go:14-17); a registered converter always has the type asked for, so the
assertion of line 52 holds.

`sync.RWMutex` is modelled with its preference for writers, which decides whether nested calls block:

* `RLock` goes through unless a writer holds the lock or has announced itself;
* `Lock` announces the writer (one at a time), then waits until the readers have left;
* the number of readers is kept per goroutine; the lock's counter is the sum.
-/
namespace Verif.ConvConc

variable {K : Type} [DecidableEq K]

/-- A change of the map `converters`. -/
inductive Op (K : Type) where
  | reg (k : K) (c : Nat)
  | unreg (k : K)
  deriving DecidableEq

/-- The functions of the package. `IntoOr` (convx.go:61-67) is a call of `Into`. -/
inductive Call (K : Type) where
  | op (o : Op K)     -- `Register`, `Unregister`
  | exist (k : K)     -- `Exists`
  | into (k : K)      -- `Into`
  deriving DecidableEq

/-- What a goroutine has still to do. -/
inductive Act (K : Type) where
  | call (c : Call K)
  | acq (o : Op K)      -- in `Lock`, announced
  | wr (o : Op K)       -- holds the lock for writing, about to change the map
  | unlock
  | rd (k : K) (run : Bool)  -- holds the lock for reading, about to read the map; `run`: then runs the converter
  | runlock
  deriving DecidableEq

/-- The writer's side of the lock. -/
inductive W where
  | free
  | pend (t : Nat)
  | held (t : Nat)
  deriving DecidableEq

/-- What has happened, in order: changes of the map, and lookups with their answers. -/
inductive Ev (K : Type) where
  | wrote (t : Nat) (o : Op K)
  | read (t : Nat) (k : K) (run : Bool) (found : Option Nat)
  deriving DecidableEq

/-- `converters` and `convertersLock` (convx.go:8-9), the goroutines, and (observed only) the events. -/
structure St (K : Type) where
  map : K → Option Nat
  w : W
  r : Nat → Nat
  thr : Nat → List (Act K)
  log : List (Ev K)

/-- convx.go:14-17 and 23-27: what the changes do to the map. -/
def Op.apply (m : K → Option Nat) : Op K → K → Option Nat
  | .reg k c => fun k' => if k' = k then some c else m k'
  | .unreg k => fun k' => if k' = k then none else m k'

/-- Goroutine `t` has `l` still to do. -/
def St.to (s : St K) (t : Nat) (l : List (Act K)) : St K :=
  { s with thr := fun u => if u = t then l else s.thr u }

/-- Goroutine `t` holds the lock for reading `n` times. -/
def St.rdrs (s : St K) (t n : Nat) : St K := { s with r := fun u => if u = t then n else s.r u }

/-- convx.go:52-56: the calls a lookup is followed by: none if there is no converter or the call is `Exists`. -/
def after (body : Nat → List (Call K)) (run : Bool) : Option Nat → List (Act K)
  | none => []
  | some c => if run then (body c).map .call else []

/-- One step of goroutine `t`: `Register` and `Unregister` convx.go:11-28, `Exists` and `Into` convx.go:30-59. -/
inductive Step (body : Nat → List (Call K)) (t : Nat) : St K → St K → Prop where
  | announce (s o rest) : s.thr t = .call (.op o) :: rest → s.w = .free →
      Step body t s ({ s with w := .pend t }.to t (.acq o :: rest))
  | acquire (s o rest) : s.thr t = .acq o :: rest → s.w = .pend t → (∀ u, s.r u = 0) →
      Step body t s ({ s with w := .held t }.to t (.wr o :: rest))
  | write (s o rest) : s.thr t = .wr o :: rest →
      Step body t s ({ s with map := o.apply s.map, log := s.log ++ [Ev.wrote t o] }.to t (.unlock :: rest))
  | unlock (s rest) : s.thr t = .unlock :: rest → Step body t s ({ s with w := .free }.to t rest)
  | rlockE (s k rest) : s.thr t = .call (.exist k) :: rest → s.w = .free →
      Step body t s ((s.rdrs t (s.r t + 1)).to t (.rd k false :: .runlock :: rest))
  | rlockI (s k rest) : s.thr t = .call (.into k) :: rest → s.w = .free →
      Step body t s ((s.rdrs t (s.r t + 1)).to t (.rd k true :: .runlock :: rest))
  | read (s k run rest) : s.thr t = .rd k run :: rest →
      Step body t s ({ s with log := s.log ++ [Ev.read t k run (s.map k)] }.to t
        (after body run (s.map k) ++ rest))
  | runlock (s rest) : s.thr t = .runlock :: rest → Step body t s ((s.rdrs t (s.r t - 1)).to t rest)

/-- The start: the map holds what `init` registered (init.go), goroutine `t` is to make the calls `prog t`. -/
def start (m : K → Option Nat) (prog : Nat → List (Call K)) : St K :=
  ⟨m, .free, fun _ => 0, fun t => (prog t).map .call, []⟩

/-- `s` is reached from the start in `n` steps. -/
inductive Run (body : Nat → List (Call K)) (m : K → Option Nat) (prog : Nat → List (Call K)) : Nat → St K → Prop where
  | start : Run body m prog 0 (start m prog)
  | step {n s s' t} : Run body m prog n s → Step body t s s' → Run body m prog (n + 1) s'

/-- `s'` is reached from `s`. -/
inductive Steps (body : Nat → List (Call K)) (s : St K) : St K → Prop where
  | refl : Steps body s s
  | step {s' s'' t} : Steps body s s' → Step body t s' s'' → Steps body s s''

end Verif.ConvConc
