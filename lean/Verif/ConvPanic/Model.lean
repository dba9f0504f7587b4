import Verif.ConvConc.Model
/-!
# Model of `typex/convx/convx.go` with converters that panic

The machine of `Verif.ConvConc` (the lock with its preference for writers, the map, goroutines in number)
with code that can leave a call other than by returning:

* a converter may panic: the deferred calls run, newest first, up to the nearest recovering caller;
* a converter may call `runtime.Goexit` (as `testing.T.FailNow` does): all deferred calls run, nothing is recovered;
* code may recover (`guard`): a function that defers a `recover` and calls `q`.

The only deferred calls of the package that can be pending then are those of `RUnlock` (convx.go:32, 43): the
functions that hold the lock for writing run no code of the user. A registered nil function is a converter that
panics at once. A panic that nobody recovers ends the process; here the goroutine then stops with
`[.abort false]` left. What a converter returns is the matter of `Verif.ConvReg`.
-/
namespace Verif.ConvPanic

open ConvConc (Op W Ev)

variable {K : Type} [DecidableEq K]

/-- What a goroutine, or a converter, does: calls of the package, one after the other. `look k false` is `Exists`,
`look k true` is `Into` or `IntoOr` (convx.go:30-67). -/
inductive Prog (K : Type) where
  | done
  | op (o : Op K) (p : Prog K)               -- `Register`, `Unregister` (convx.go:11-28)
  | look (k : K) (run : Bool) (p : Prog K)
  | guard (q p : Prog K)                     -- `q` in a function that recovers, then `p`
  | panic
  | exit                                     -- `runtime.Goexit`
  deriving DecidableEq

/-- What is on the stack of a goroutine. -/
inductive Act (K : Type) where
  | prog (p : Prog K)
  | acq (o : Op K)           -- in `Lock`, announced
  | wr (o : Op K)            -- holds the lock for writing, about to change the map
  | unlock                   -- the deferred `Unlock`
  | rd (k : K) (run : Bool)  -- holds the lock for reading, about to read the map
  | runlock                  -- the deferred `RUnlock`
  | recovers                 -- the deferred `recover`
  | abort (all : Bool)       -- panicking, or (`all`) in `Goexit`: the deferred calls are being run
  deriving DecidableEq

/-- `converters` and `convertersLock` (convx.go:8-9), the goroutines, and (observed only) the events. -/
structure St (K : Type) where
  map : K → Option Nat
  w : W
  r : Nat → Nat
  thr : Nat → List (Act K)
  log : List (Ev K)

/-- Goroutine `t` has the stack `l`. -/
def St.to (s : St K) (t : Nat) (l : List (Act K)) : St K :=
  { s with thr := fun u => if u = t then l else s.thr u }

/-- Goroutine `t` holds the lock for reading `n` times. -/
def St.rdrs (s : St K) (t n : Nat) : St K := { s with r := fun u => if u = t then n else s.r u }

/-- convx.go:44-56: after the lookup: the converter is called if there is one and the call is `Into`. -/
def after (body : Nat → Prog K) (run : Bool) : Option Nat → List (Act K)
  | none => []
  | some c => if run then [.prog (body c)] else []

/-- One step of goroutine `t`. The first eight are those of `ConvConc.Step` (convx.go:11-59); the others are the
running of Go code: returning, recovering, panicking, and the deferred calls that run then. -/
inductive Step (body : Nat → Prog K) (t : Nat) : St K → St K → Prop where
  | announce (s o p rest) : s.thr t = .prog (.op o p) :: rest → s.w = .free →
      Step body t s ({ s with w := .pend t }.to t (.acq o :: .prog p :: rest))
  | acquire (s o rest) : s.thr t = .acq o :: rest → s.w = .pend t → (∀ u, s.r u = 0) →
      Step body t s ({ s with w := .held t }.to t (.wr o :: rest))
  | write (s o rest) : s.thr t = .wr o :: rest →
      Step body t s ({ s with map := o.apply s.map, log := s.log ++ [Ev.wrote t o] }.to t (.unlock :: rest))
  | unlock (s rest) : s.thr t = .unlock :: rest → Step body t s ({ s with w := .free }.to t rest)
  | rlock (s k run p rest) : s.thr t = .prog (.look k run p) :: rest → s.w = .free →
      Step body t s ((s.rdrs t (s.r t + 1)).to t (.rd k run :: .runlock :: .prog p :: rest))
  | read (s k run rest) : s.thr t = .rd k run :: rest →
      Step body t s ({ s with log := s.log ++ [Ev.read t k run (s.map k)] }.to t
        (after body run (s.map k) ++ rest))
  | runlock (s rest) : s.thr t = .runlock :: rest → Step body t s ((s.rdrs t (s.r t - 1)).to t rest)
  | ret (s rest) : s.thr t = .prog .done :: rest → Step body t s (s.to t rest)
  | guard (s q p rest) : s.thr t = .prog (.guard q p) :: rest →
      Step body t s (s.to t (.prog q :: .recovers :: .prog p :: rest))
  | unneeded (s rest) : s.thr t = .recovers :: rest → Step body t s (s.to t rest)
  | panic (s rest) : s.thr t = .prog .panic :: rest → Step body t s (s.to t (.abort false :: rest))
  | exit (s rest) : s.thr t = .prog .exit :: rest → Step body t s (s.to t (.abort true :: rest))
  | skip (s all p rest) : s.thr t = .abort all :: .prog p :: rest → Step body t s (s.to t (.abort all :: rest))
  | deferred (s all rest) : s.thr t = .abort all :: .runlock :: rest →
      Step body t s ((s.rdrs t (s.r t - 1)).to t (.abort all :: rest))
  | recover (s rest) : s.thr t = .abort false :: .recovers :: rest → Step body t s (s.to t rest)
  | through (s rest) : s.thr t = .abort true :: .recovers :: rest → Step body t s (s.to t (.abort true :: rest))
  | exited (s) : s.thr t = [.abort true] → Step body t s (s.to t [])

/-- The stack of a goroutine that is to do `p`; `none`: there is no goroutine with that number. -/
def stack : Option (Prog K) → List (Act K)
  | none => []
  | some p => [.prog p]

/-- The start: the map holds what `init` registered (init.go), goroutine `t` is to do `prog t`. -/
def start (m : K → Option Nat) (prog : Nat → Option (Prog K)) : St K :=
  ⟨m, .free, fun _ => 0, fun t => stack (prog t), []⟩

/-- `s` is reached from the start. -/
inductive Run (body : Nat → Prog K) (m : K → Option Nat) (prog : Nat → Option (Prog K)) : St K → Prop where
  | start : Run body m prog (start m prog)
  | step {s s' t} : Run body m prog s → Step body t s s' → Run body m prog s'

/-- `s'` is reached from `s`. -/
inductive Steps (body : Nat → Prog K) (s : St K) : St K → Prop where
  | refl : Steps body s s
  | step {s' s'' t} : Steps body s s' → Step body t s' s'' → Steps body s s''

end Verif.ConvPanic
