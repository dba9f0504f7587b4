import Verif.Conc.Sect
import Verif.SklShare.Lemmas
import Verif.OrdShare.Lemmas
import Verif.HandOut.Lemmas
/-!
# Programs with sections of several calls

The containers of the module have no locks of their own (sklmapx.go:21-26, ordmapx.go:8-11, linkedx/stackx/stackx.go:16-20), and what a program wants to be one step
is often several calls. `Verif.Conc.Sect` runs such programs: a `sync.RWMutex` of the program around the calls, every interleaving of the calls'
own steps. The calls are those of `Verif.SklShare`, `Verif.OrdShare` and `Verif.HandOut`. Here are three programs.
-/
namespace Verif.CritSec
open Verif.Go Verif.Conc Verif.Conc.RW Verif.Conc.Sect

/-! ## Transfers and audits -/

/-- Local states. `todo xs` has the transfers `xs` to make; `audit seen n` has made its audits `seen` and has `n` left. -/
inductive Bank where
  | todo (xs : List Int)
  | t1 (x : Int) (xs : List Int) (a : Int)
  | t2 (x : Int) (xs : List Int) (a b : Int)
  | t3 (x : Int) (xs : List Int) (b : Int)
  | t4 (xs : List Int)
  | audit (seen : List (Int × Int)) (n : Nat)
  | a1 (seen : List (Int × Int)) (n : Nat) (a : Int)
  | a2 (seen : List (Int × Int)) (n : Nat) (a b : Int)

/-- What `v, _ := m.Get(k)` leaves in `v`. -/
def got {K : Type} : SklShare.Res K Int → Int
  | .val o => o.getD 0
  | _ => 0

/-- `mu.Lock(); a, _ := m.Get(k1); b, _ := m.Get(k2); m.Set(k1, a-x); m.Set(k2, b+x); mu.Unlock()` for each transfer, and
`mu.RLock(); a, _ := m.Get(k1); b, _ := m.Get(k2); mu.RUnlock()` for each audit. -/
def bank {K : Type} (k1 k2 : K) : Prog Bank (SklShare.Call K Int) (SklShare.Res K Int) where
  enters
    | .todo (_ :: _) => some true
    | .audit _ (_ + 1) => some false
    | _ => none
  call
    | .todo (_ :: _) => some (.get k1)
    | .t1 _ _ _ => some (.get k2)
    | .t2 x _ a _ => some (.set k1 (a - x))
    | .t3 x _ b => some (.set k2 (b + x))
    | .audit _ (_ + 1) => some (.get k1)
    | .a1 _ _ _ => some (.get k2)
    | _ => none
  resume
    | .todo (x :: xs), r => .t1 x xs (got r)
    | .t1 x xs a, r => .t2 x xs a (got r)
    | .t2 x xs _ b, _ => .t3 x xs b
    | .t3 _ xs _, _ => .t4 xs
    | .audit seen (n + 1), r => .a1 seen n (got r)
    | .a1 seen n a, r => .a2 seen n a (got r)
    | q, _ => q
  leave
    | .t4 xs => .todo xs
    | .a2 seen n a b => .audit (seen ++ [(a, b)]) n
    | q => q

/-! ## Get or create -/

/-- Local states: `ask v` would create `v`, `put v` found nothing, `have v` has its value, `done v` has it and has unlocked. -/
inductive Make (V : Type) where
  | ask (v : V)
  | put (v : V)
  | «have» (v : V)
  | done (v : V)

/-- `mu.Lock(); u, ok := m.Get(k); if !ok { u = v; m.Set(k, v) }; mu.Unlock()`. -/
def make {K V : Type} (k : K) : Prog (Make V) (SklShare.Call K V) (SklShare.Res K V) where
  enters
    | .ask _ => some true
    | _ => none
  call
    | .ask _ => some (.get k)
    | .put v => some (.set k v)
    | _ => none
  resume
    | .ask _, .val (some u) => .have u
    | .ask v, _ => .put v
    | .put v, _ => .have v
    | q, _ => q
  leave
    | .have v => .done v
    | q => q

/-! ## Taking from a linked stack -/

/-- Local states: outside with the state of the program; after a `Peek` that showed an element; with the result, before the unlock. -/
inductive Wrap (T P : Type) where
  | out (q : P)
  | seen (q : P) (r : Linked.Res T)
  | done (q : P) (r : Linked.Res T)

/-- A program over a stack, with every `Pop` made as `mu.Lock(); v, ok := s.Peek(); if ok { s.Pop() }; mu.Unlock()`, a panic of this `Pop` being recovered.
The other calls are made as they are, between a lock and an unlock. -/
def wrap {T P : Type} (p : Client P (Dsx.SOp T) (Linked.Res T)) : Prog (Wrap T P) (Dsx.SOp T) (Linked.Res T) where
  enters
    | .out q => (p.call q).map fun _ => true
    | _ => none
  call
    | .out q => match p.call q with
      | some .pop => some .peek
      | c => c
    | .seen _ _ => some .pop
    | .done _ _ => none
  resume
    | .out q, r => match p.call q, r with
      | some .pop, .none => .done q .none
      | some .pop, r => .seen q r
      | _, r => .done q r
    | .seen q r, _ => .done q r
    | .done q r, _ => .done q r
  leave
    | .done q r => .out (p.resume q r)
    | q => q

end Verif.CritSec
