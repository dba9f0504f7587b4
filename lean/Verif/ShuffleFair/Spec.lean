import Verif.Slicex.Model
import Mathlib.SetTheory.Cardinal.Finite
/-!
# What the random source does in one call of Shuffle

`rand.Shuffle` draws, for every `i` from `n-1` down to 1, one of the numbers `0..i`, each as likely as the others. So it
chooses among the functions below, each as likely as the others.
-/
namespace Verif.ShuffleFair
open Verif.Go Verif.Slicex

/-- The draws of one call on `n` elements: number `i` is one of `0..i`. -/
abbrev Draws (n : Nat) : Type := (i : Fin n) → Fin (i + 1)

/-- As a source. -/
def source {n : Nat} (d : Draws n) : Nat → Nat := fun i => if h : i < n then (d ⟨i, h⟩ : Nat) else 0

variable {T : Type} [Inhabited T]

/-- With these draws the slice has the elements `l` after `Shuffle`. -/
def Gives (h : Hp T) (s : Sl) (d : Draws s.len) (l : List T) : Prop :=
  ∃ h', shuffle h s (source d) = .ret h' ∧ elems h' s = l

/-- How many of the sequences of draws arrange the elements like this. -/
noncomputable def ways (h : Hp T) (s : Sl) (l : List T) : Nat := Nat.card { d : Draws s.len // Gives h s d l }

end Verif.ShuffleFair
