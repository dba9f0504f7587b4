import Verif.Skl.Refine
import Verif.SklCost.Model
import Mathlib.Data.List.FinRange
/-!
# The skip-list map with tossed coins in place of the generator

As `Verif.Skl.Model`, but `rand_height` gets its bits from a sequence of coins: fifteen for each update of the history, of which it
looks at no more than it needs and at none if no node is made.
-/
namespace Verif.SklMean
open Verif.Go Verif.Skl Verif.MapSpec

/-- Fifteen coins, what one call of `rand_height` looks at at most. -/
abbrev Coins := Fin 15 → Bool

/-- sklmapx.go:11-19 `rand_height`: one more than the number of coins before the first that shows `true`. -/
def heightOf (c : Coins) : Nat := (List.finRange 15).findIdx c + 1

/-- The coins the generator tosses: the lowest bits of the next fifteen numbers (sklmapx.go:14). -/
def generated (seed : BitVec 64) : Coins := fun i => decide (mix (seed + BitVec.ofNat 64 (i.val + 1) * incrementConstant) &&& 1#64 = 1#64)

variable {K V : Type} [GoOrdered K] [Inhabited K] [Inhabited V]

/-- An update with the given coins. sklmapx.go:91-99, 188-191. The seed goes on as always but is not looked at. -/
def step (c : Coins) (w : World K V) : Op K V → Outcome (World K V)
  | .set k v => insertWith (heightOf c, (randHeight w.skl.seed).2) w k v
  | .del k => (Skl.del w k).map Prod.fst
  | .clear seed => .ret (Skl.clear w seed)

/-- A history, oldest update first; the `i`-th update is given the coins `t i`. -/
def run (t : Nat → Coins) (w : World K V) : List (Op K V) → Outcome (World K V)
  | [] => .ret w
  | op :: ops => (step (t 0) w op).bind fun w' => run (fun i => t (i + 1)) w' ops

/-- The coins for a history of `n` updates. -/
abbrev Tosses (n : Nat) := Fin n → Coins

/-- Continued in any way. -/
def extend {n : Nat} (t : Tosses n) : Nat → Coins := fun i => if h : i < n then t ⟨i, h⟩ else fun _ => false

end Verif.SklMean
