import Verif.LazyPanic.Spec
/-!
# Model of `functionalx/lazyx/lazy.go`: goroutines that get lazies whose constructors get lazies, panic and recover

Goroutines and lazies are numbered. What a constructor does next depends on what its `Get` calls gave so far, as in `Verif.LazyPanic`
(`ctor i got`); so does the program of a goroutine, which recovers from panics. `sync.Once.Do` is modelled as the standard library has
it, step by step, as in `Verif.Lazy` and `Verif.LazyConc`: load `done`; if it is not set, lock the mutex, check again, run the function
with two deferred steps (set `done`, then unlock) that also happen when it panics.
-/
namespace Verif.LazyAll
open LazyPanic (Prog Act)

variable {V : Type}

/-- A frame of a goroutine's stack. `got`: what its `Get` calls gave so far, `none` for a panic. `p`: a panic is unwinding. -/
inductive Fr (V : Type) where
  | main (got : List (Option V))
  | load (i : Nat)                      -- `Get`: about to load `done`
  | lock (i : Nat)                      -- about to lock the mutex
  | check (i : Nat)                     -- holds the mutex, about to check `done` again
  | build (i : Nat) (got : List (Option V)) -- the constructor is running
  | write (i : Nat) (v : V)             -- the constructor returned `v`, `l.value = v` is next
  | setDone (i : Nat) (p : Bool)        -- deferred
  | unlock (i : Nat) (p : Bool)         -- deferred
  | read (i : Nat)                      -- about to read `l.value` and return it
  | fail (i : Nat)                      -- about to panic out of `Get`

/-- The lazies: `done` and `mu` of their `sync.Once`, and `value`; the stacks of the goroutines, innermost frame first; and (observed
only) the goroutines that started each constructor, and what the `Get` calls gave their callers. -/
structure St (V : Type) where
  done : Nat → Bool
  mu : Nat → Option Nat
  value : Nat → V
  thr : Nat → List (Fr V)
  runs : Nat → List Nat
  log : List (Nat × Option V)

/-- What a step does besides changing the stack. -/
inductive Eff (V : Type) where
  | nop
  | lock (i : Nat)
  | unlock (i : Nat)
  | run (i : Nat)
  | write (i : Nat) (v : V)
  | set (i : Nat)
  | out (i : Nat) (r : Option V)

/-- A function with one value changed. -/
def upd {β : Type} (f : Nat → β) (i : Nat) (b : β) : Nat → β := fun k => if k = i then b else f k

/-- The effect of a step of goroutine `t`. -/
def St.eff (s : St V) (t : Nat) : Eff V → St V
  | .nop => s
  | .lock i => { s with mu := upd s.mu i (some t) }
  | .unlock i => { s with mu := upd s.mu i none }
  | .run i => { s with runs := upd s.runs i (s.runs i ++ [t]) }
  | .write i v => { s with value := upd s.value i v }
  | .set i => { s with done := upd s.done i true }
  | .out i r => { s with log := s.log ++ [(i, r)] }

/-- `Get` gives `r` to its caller, a goroutine's program or a constructor, which recovers or does not. -/
def give (P : Prog V) (r : Option V) : List (Fr V) → List (Fr V)
  | .main got :: l => .main (got ++ [r]) :: l
  | .build i got :: l =>
    match r, P.ctor i got with
    | none, .get _ false => .setDone i true :: l
    | r, _ => .build i (got ++ [r]) :: l
  | l => l

/-- A step of a goroutine with the program `main`, seen from its stack: lazy.go:17-23 `Get`; sync/once.go `Do` and `doSlow`. -/
inductive Mv (P : Prog V) (main : List (Option V) → Option Nat) (s : St V) : List (Fr V) → Eff V → List (Fr V) → Prop where
  | call {got i l} : main got = some i → Mv P main s (.main got :: l) .nop (.load i :: .main got :: l)
  | loadSet {i l} : s.done i = true → Mv P main s (.load i :: l) .nop (.read i :: l)
  | loadUnset {i l} : s.done i = false → Mv P main s (.load i :: l) .nop (.lock i :: l)
  | lock {i l} : s.mu i = none → Mv P main s (.lock i :: l) (.lock i) (.check i :: l)
  | checkSet {i l} : s.done i = true → Mv P main s (.check i :: l) .nop (.unlock i false :: l)
  | checkUnset {i l} : s.done i = false → Mv P main s (.check i :: l) (.run i) (.build i [] :: l)
  | need {i got j g l} : P.ctor i got = .get j g → Mv P main s (.build i got :: l) .nop (.load j :: .build i got :: l)
  | built {i got v l} : P.ctor i got = .ret v → Mv P main s (.build i got :: l) .nop (.write i v :: l)
  | panics {i got l} : P.ctor i got = .panic → Mv P main s (.build i got :: l) .nop (.setDone i true :: l)
  | write {i v l} : Mv P main s (.write i v :: l) (.write i v) (.setDone i false :: l)
  | setDone {i p l} : Mv P main s (.setDone i p :: l) (.set i) (.unlock i p :: l)
  | unlock {i l} : Mv P main s (.unlock i false :: l) (.unlock i) (.read i :: l)
  | unlockPanic {i l} : Mv P main s (.unlock i true :: l) (.unlock i) (.fail i :: l)
  | read {i l} : Mv P main s (.read i :: l) (.out i (some (s.value i))) (give P (some (s.value i)) l)
  | fail {i l} : Mv P main s (.fail i :: l) (.out i none) (give P none l)

/-- One step of goroutine `t`. -/
inductive Step (P : Prog V) (prog : Nat → List (Option V) → Option Nat) (t : Nat) : St V → St V → Prop where
  | mk {s e l} : Mv P (prog t) s (s.thr t) e l → Step P prog t s { s.eff t e with thr := upd s.thr t l }

/-- The start: all lazies are those of `New` (lazy.go:5-9). -/
def start (P : Prog V) : St V := ⟨fun _ => false, fun _ => none, fun _ => P.zero, fun _ => [.main []], fun _ => [], []⟩

/-- The states executions reach. -/
inductive Reach (P : Prog V) (prog : Nat → List (Option V) → Option Nat) : St V → Prop where
  | start : Reach P prog (start P)
  | step {s s' t} : Reach P prog s → Step P prog t s s' → Reach P prog s'

end Verif.LazyAll
