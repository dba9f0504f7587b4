import Verif.Prelude
/-!
# Model of `syncx/syncpoolx/syncpoolx.go` with the contents of the objects

The model of `Verif.Pool` takes for granted that callers keep the rules in the comments of the package and does not look into the
objects. Here an object has a content, callers may do as they like — put what they do not hold, put an object twice or `nil`, write
after they have put — and the execution records what happened. Whether the rules were kept is then a property of the record.

`sync.Pool` is a collection of pointers from which `Get` takes any one or none at all, and from which the garbage collector removes
pointers at any time. Every method is one step. The `New` function gives an object of its own with one of the contents `N`.
-/
namespace Verif.PoolUse

/-- What happened. `g` is the goroutine, `a` an object; a pointer `p` may be nil. -/
inductive Ev (T : Type) where
  | init                                  -- `Init`
  | take (g : Nat) (p : Option Nat)       -- `Get` returned what was in the pool
  | made (g a : Nat) (v : T)              -- `Get` returned what `New` made, with content `v`
  | panicked (g : Nat)                    -- `Get` panicked
  | put (g : Nat) (p : Option Nat)        -- `Put`
  | own (g a : Nat) (v : T)               -- the goroutine made an object without the pool
  | write (g a : Nat) (v : T)             -- the goroutine set the content of the object
  | read (g a : Nat) (v : T)              -- the goroutine read the content of the object
  | drop (p : Option Nat)                 -- the garbage collector emptied a place of the pool

/-- The pool (syncpoolx.go:8-10: whether it has a `New` function, and what is in it) and the objects. -/
structure St (T : Type) where
  hasNew : Bool
  stored : List (Option Nat)
  val : Nat → T
  brk : Nat

/-- The zero pool; there are no objects yet. -/
def start {T : Type} [Inhabited T] : St T := ⟨false, [], fun _ => default, 0⟩

/-- A new object with content `v`. -/
def St.alloc {T : Type} (s : St T) (v : T) : St T := { s with val := fun b => if b = s.brk then v else s.val b, brk := s.brk + 1 }

/-- One step; `N` are the contents that `New` gives. -/
inductive Step {T : Type} (N : T → Prop) : St T → Ev T → St T → Prop where
  /-- syncpoolx.go:16-20 -/
  | init (s) : Step N s .init { s with hasNew := true }
  /-- syncpoolx.go:25-27, `pool.Get()` finds a pointer. A nil `*T` is a value of type `*T`: the assertion succeeds. -/
  | take (s) (g p) : p ∈ s.stored → Step N s (.take g p) { s with stored := s.stored.erase p }
  /-- syncpoolx.go:25-27 and 18, `pool.Get()` calls `New`. -/
  | made (s) (g v) : s.hasNew = true → N v → Step N s (.made g s.brk v) (s.alloc v)
  /-- syncpoolx.go:26, `pool.Get()` without `New` is nil and the assertion panics. -/
  | panicked (s) (g) : s.hasNew = false → Step N s (.panicked g) s
  /-- syncpoolx.go:34-36; the argument is a `*T` in an `interface{}`, which is not nil even if the pointer is. -/
  | put (s) (g p) : (∀ a, p = some a → a < s.brk) → Step N s (.put g p) { s with stored := p :: s.stored }
  | own (s) (g v) : Step N s (.own g s.brk v) (s.alloc v)
  | write (s) (g a v) : a < s.brk → Step N s (.write g a v) { s with val := fun b => if b = a then v else s.val b }
  | read (s) (g a) : a < s.brk → Step N s (.read g a (s.val a)) s
  | drop (s) (p) : Step N s (.drop p) { s with stored := s.stored.erase p }

/-- An execution and where it leads. -/
inductive Run {T : Type} [Inhabited T] (N : T → Prop) : List (Ev T) → St T → Prop where
  | nil : Run N [] start
  | snoc {h e s s'} : Run N h s → Step N s e s' → Run N (h ++ [e]) s'

end Verif.PoolUse
