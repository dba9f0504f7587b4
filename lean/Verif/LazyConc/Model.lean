import Verif.Prelude
/-!
# Model of `functionalx/lazyx/lazy.go`: lazies whose constructors get other lazies

Goroutines and lazies are numbered. Goroutine `t` gets the lazies of `prog t` one after the other; the constructor of
lazy `i` gets the lazies of `deps i`, one after the other, and returns `ctor i` of their values. (Constructors that
panic or never return are the matter of `Verif.Lazy`.) `sync.Once.Do` is modelled as the standard library has it: load
`done`; if it is not set, lock the mutex, check again, run the function, set `done`, unlock.
-/
namespace Verif.LazyConc

variable {V : Type}

/-- A frame of a goroutine's stack. `got`: the values of the lazies it has got so far. -/
inductive Fr (V : Type) where
  | main (todo : List Nat) (got : List V)
  | load (i : Nat)                            -- `Get`: about to load `done`
  | lock (i : Nat)                            -- about to lock the mutex
  | check (i : Nat)                           -- holds the mutex, about to check `done` again
  | build (i : Nat) (todo : List Nat) (got : List V) -- the constructor is running
  | write (i : Nat) (v : V)                   -- the constructor returned `v`, `l.value = v` is next
  | setDone (i : Nat)
  | unlock (i : Nat)
  | read (i : Nat)                            -- about to read `l.value` and return it

/-- The lazies: `done` and `mu` of their `sync.Once`, and `value`; the stacks of the goroutines, innermost frame first;
and (observed only) how often each constructor was started. -/
structure St (V : Type) where
  done : Nat → Bool
  mu : Nat → Option Nat
  value : Nat → V
  thr : Nat → List (Fr V)
  starts : Nat → Nat

/-- Goroutine `t` has the stack `l`. -/
def St.to (s : St V) (t : Nat) (l : List (Fr V)) : St V := { s with thr := fun u => if u = t then l else s.thr u }

/-- The mutex of `i` becomes `o`. -/
def St.setMu (s : St V) (i : Nat) (o : Option Nat) : St V := { s with mu := fun k => if k = i then o else s.mu k }

/-- `Get` returns `v` to its caller. -/
def ret (v : V) : List (Fr V) → List (Fr V)
  | .main todo got :: l => .main todo (got ++ [v]) :: l
  | .build i todo got :: l => .build i todo (got ++ [v]) :: l
  | l => l

/-- The lazies: what the constructors get, and what they return. -/
structure Prog (V : Type) where
  deps : Nat → List Nat
  ctor : Nat → List V → V

/-- One step of goroutine `t`: lazy.go:17-23 `Get`; sync/once.go `Do` and `doSlow`. -/
inductive Step (P : Prog V) (t : Nat) : St V → St V → Prop where
  | call (s i todo got l) : s.thr t = .main (i :: todo) got :: l → Step P t s (s.to t (.load i :: .main todo got :: l))
  | loadSet (s i l) : s.thr t = .load i :: l → s.done i = true → Step P t s (s.to t (.read i :: l))
  | loadUnset (s i l) : s.thr t = .load i :: l → s.done i = false → Step P t s (s.to t (.lock i :: l))
  | lock (s i l) : s.thr t = .lock i :: l → s.mu i = none → Step P t s ((s.setMu i (some t)).to t (.check i :: l))
  | checkSet (s i l) : s.thr t = .check i :: l → s.done i = true → Step P t s (s.to t (.unlock i :: l))
  | checkUnset (s i l) : s.thr t = .check i :: l → s.done i = false →
      Step P t s ({ s with starts := fun k => if k = i then s.starts i + 1 else s.starts k }.to t
        (.build i (P.deps i) [] :: l))
  | need (s i j todo got l) : s.thr t = .build i (j :: todo) got :: l →
      Step P t s (s.to t (.load j :: .build i todo got :: l))
  | built (s i got l) : s.thr t = .build i [] got :: l → Step P t s (s.to t (.write i (P.ctor i got) :: l))
  | write (s i v l) : s.thr t = .write i v :: l →
      Step P t s ({ s with value := fun k => if k = i then v else s.value k }.to t (.setDone i :: l))
  | setDone (s i l) : s.thr t = .setDone i :: l →
      Step P t s ({ s with done := fun k => if k = i then true else s.done k }.to t (.unlock i :: l))
  | unlock (s i l) : s.thr t = .unlock i :: l → Step P t s ((s.setMu i none).to t (.read i :: l))
  | read (s i l) : s.thr t = .read i :: l → Step P t s (s.to t (ret (s.value i) l))

/-- The start: all lazies are those of `New` (lazy.go:5-9). -/
def start (zero : V) (prog : Nat → List Nat) : St V :=
  ⟨fun _ => false, fun _ => none, fun _ => zero, fun t => [.main (prog t) []], fun _ => 0⟩

/-- The states executions reach. -/
inductive Reach (P : Prog V) (zero : V) (prog : Nat → List Nat) : St V → Prop where
  | start : Reach P zero prog (start zero prog)
  | step {s s' t} : Reach P zero prog s → Step P t s s' → Reach P zero prog s'

/-- `s'` is reached from `s`. -/
inductive Steps (P : Prog V) (s : St V) : St V → Prop where
  | refl : Steps P s s
  | step {s' s'' t} : Steps P s s' → Step P t s' s'' → Steps P s s''

end Verif.LazyConc
