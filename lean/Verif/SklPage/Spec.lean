import Verif.SklPage.Model
import Verif.SklWeak.Spec
/-!
# C179, the statement: what the pages should be
-/
namespace Verif.SklPage
open Verif.Go Verif.MapSpec Verif.Skl

variable {K V : Type} [GoOrdered K] [DecidableEq K]

/-- The key comes after the last one. -/
def After (last : Option K) (z : K) : Prop := ∀ k, last = some k → GoOrdered.lt k z = true

/-- One page: the first `n` entries after `last` that the map has at this time. -/
structure IsPage (hist : List (Op K V)) (last : Option K) (n : Nat) (p : List (K × V)) : Prop where
  up : p.Pairwise fun a b => GoOrdered.lt a.1 b.1 = true
  after : ∀ e ∈ p, After last e.1
  now : ∀ e ∈ p, lookup hist e.1 = some e.2
  size : p.length ≤ n
  all : ∀ z, (lookup hist z).isSome → After last z → (∃ v, (z, v) ∈ p) ∨ (p.length = n ∧ ∀ e ∈ p, GoOrdered.lt e.1 z = true)

/-- All pages, each of them read after the calls in `gaps` that come before it. `start` says where a page begins. -/
inductive Pages (start : List (Op K V) → Option K → Option K) (n : Nat) : List (Op K V) → Option K → List (List (Op K V)) → List (List (K × V)) → Prop
  | nil {h last} : Pages start n h last [] []
  | cons {h last ops gaps p ps} : IsPage (h ++ ops) (start (h ++ ops) last) n p → Pages start n (h ++ ops) (lastOf last p) gaps ps →
      Pages start n h last (ops :: gaps) (p :: ps)

/-- What a reader expects: each page begins after the one before. -/
def onwards : List (Op K V) → Option K → Option K := fun _ last => last

/-- What `Seek` does: it begins at the beginning if the key is no longer there. -/
def restarting : List (Op K V) → Option K → Option K := fun h last => last.filter fun k => (lookup h k).isSome

/-- The last key of each page is still in the map when the next page is read. -/
inductive Held : List (Op K V) → Option K → List (List (Op K V)) → List (List (K × V)) → Prop
  | nil {h last} : Held h last [] []
  | cons {h last ops gaps p ps} : (∀ k, last = some k → (lookup (h ++ ops) k).isSome) → Held (h ++ ops) (lastOf last p) gaps ps → Held h last (ops :: gaps) (p :: ps)

/-- The key is in the map whenever a page is read. -/
def Present (z : K) : List (Op K V) → List (List (Op K V)) → Prop
  | _, [] => True
  | h, ops :: gaps => (lookup (h ++ ops) z).isSome ∧ Present z (h ++ ops) gaps

/-- The reader has come to the end: the last page was not full. -/
def Ended (n : Nat) (ps : List (List (K × V))) : Prop := ∃ p, ps.getLast? = some p ∧ p.length < n

end Verif.SklPage
