import Verif.Prelude
/-!
# Model of `functionalx/lazyx/lazy.go`: constructors that get other lazies and panic

One goroutine. The constructor of lazy `i` is any program that gets lazies, with or without `recover` around a
`Get`, and returns a value or panics: `ctor i got` is what it does next when its `Get` calls so far had the
results `got` (`none`: a panic that was recovered). `sync.Once.Do` sets `done` also when the function panics
(sync/once.go: `defer atomic.StoreUint32(&o.done, 1)`), and a `Do` inside the function of the same `Once` waits
for its mutex for ever: there is no rule for it.
-/
namespace Verif.LazyPanic

variable {V : Type}

inductive Act (V : Type) where
  | get (j : Nat) (guarded : Bool)
  | ret (v : V)
  | panic

/-- A `Lazy` (lazy.go:11-15): not got yet, its constructor is running, or `done` is set and `value` is `v`. -/
inductive Cell (V : Type) where
  | fresh
  | busy
  | done (v : V)

abbrev St (V : Type) := Nat → Cell V

/-- The lazies of a program, and the zero value of their type. -/
structure Prog (V : Type) where
  ctor : Nat → List (Option V) → Act V
  zero : V

/-- Cell `i` becomes `c`. -/
def St.put (s : St V) (i : Nat) (c : Cell V) : St V := fun k => if k = i then c else s k

mutual
/-- lazy.go:17-23 `Get` of lazy `i`: the value returned, `none` if it panics, and the lazies afterwards. -/
inductive Get (P : Prog V) : St V → Nat → Option V → St V → Prop
  | hit {s i v} : s i = .done v → Get P s i (some v) s
  | build {s i r s'} : s i = .fresh → Run P (s.put i .busy) i [] r s' → Get P s i r (s'.put i (.done (r.getD P.zero)))

/-- The constructor of `i`, which has got `got` so far (lazy.go:19). -/
inductive Run (P : Prog V) : St V → Nat → List (Option V) → Option V → St V → Prop
  | ret {s i got v} : P.ctor i got = .ret v → Run P s i got (some v) s
  | panic {s i got} : P.ctor i got = .panic → Run P s i got none s
  | got {s i got j g v s1 r s2} : P.ctor i got = .get j g → Get P s j (some v) s1 →
      Run P s1 i (got ++ [some v]) r s2 → Run P s i got r s2
  | caught {s i got j s1 r s2} : P.ctor i got = .get j true → Get P s j none s1 →
      Run P s1 i (got ++ [none]) r s2 → Run P s i got r s2
  | through {s i got j s1} : P.ctor i got = .get j false → Get P s j none s1 → Run P s i got none s1
end

/-- A program that gets lazies one after the other and recovers from panics. -/
inductive Hist (P : Prog V) : St V → List Nat → List (Option V) → St V → Prop
  | nil {s} : Hist P s [] [] s
  | cons {s i r s1 is rs s2} : Get P s i r s1 → Hist P s1 is rs s2 → Hist P s (i :: is) (r :: rs) s2

/-- The start: all lazies are those of `New` (lazy.go:5-9). -/
def start : St V := fun _ => .fresh

end Verif.LazyPanic
