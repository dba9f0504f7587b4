import Verif.SliceParts.Model
/-!
# What using the pieces separately means
-/
namespace Verif.SliceParts
open Verif.Go Verif.Slicex
variable {T : Type} [Inhabited T]

/-- The pieces `r` of the slice `s`, from `Split` with sizes that are not negative and do not overflow when
added up, or from `Batch`. -/
inductive Pieces (s : Sl) (r : List Sl) : Prop where
  | split (ns : List Int) : (∀ n ∈ ns, 0 ≤ n) → (∀ n ∈ ns, n + s.len < 2 ^ 63) ∨ ns.sum < 2 ^ 63 →
      split s ns = .ret r → Pieces s r
  | batch (n : Int) : batch s n = .ret r → Pieces s r

/-- **C111**: after any calls on the pieces, one more call on one of them leaves every other piece as it is.
`ok` restricts the calls. -/
def Separate (ok : Call T → Prop) : Prop :=
  ∀ (h : Hp T) (s : Sl) (r : List Sl), s.Ok h → (s.len : Int) < 2 ^ 63 → Pieces s r →
    ∀ h1 r1, Used ok h r h1 r1 → ∀ (i : Nat) (p : Sl) (c : Call T) (h2 : Hp T) (p2 : Sl), r1[i]? = some p → ok c → act h1 p c = .ret (h2, p2) →
      ∀ (j : Nat) (q : Sl), j ≠ i → r1[j]? = some q → elems h2 q = elems h1 q

end Verif.SliceParts
