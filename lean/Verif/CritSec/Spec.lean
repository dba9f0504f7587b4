import Verif.CritSec.Model
import Mathlib.Algebra.BigOperators.Group.Finset.Basic
/-!
# What the programs promise
-/
namespace Verif.CritSec
open Verif.Go Verif.Conc

/-- The balance of an account. -/
def bal {K : Type} (m : K → Option Int) (k : K) : Int := (m k).getD 0

/-- What a goroutine has still to transfer. -/
def Bank.left : Bank → Int
  | .todo xs => xs.sum
  | _ => 0

/-- At the start a goroutine has transfers or audits before it. -/
def Bank.Fresh (q : Bank) : Prop := (∃ xs, q = .todo xs) ∨ ∃ n, q = .audit [] n

end Verif.CritSec
