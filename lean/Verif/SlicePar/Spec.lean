import Verif.SlicePar.Model
/-!
# Working on a piece as if alone
-/
namespace Verif.SlicePar
open Verif.Go Verif.Slicex Verif.SliceAll Verif.SliceParts

variable {T : Type} [Inhabited T]

/-- The elements of a slice in a memory. -/
def shown (m : Cells T) (s : Sl) : List T := (List.range s.len).map fun k => m s.arr (s.off + k)

/-- The calls fit the code: arguments are `int`s and `Delete(MaxInt64)` is not called (C127). -/
def Fine (ok : Sl → Op T → Prop) (s : Sl) (op : Op T) : Prop := ok s op ∧ op.Typed ∧ op.Fits s.len

/-- Each goroutine sees a list of its own: the results of its calls and what its slice shows after them are those of calls on a list that
starts with the elements of its piece. -/
def Alone (ok : Sl → Op T → Prop) : Prop :=
  ∀ (lim : Nat) (h : Hp T) (s : Sl) (r : List Sl), (lim : Int) < 2 ^ 63 → s.Ok h → (s.len : Int) < 2 ^ 63 → Pieces s r →
    ∀ x, Reach (Fine ok) h r x → ∀ t p, r[t]? = some p → (x.loc t).cur = none →
      Seq lim (shown h.mem p) (x.loc t).log (shown x.mem (x.loc t).hdr)

/-- Two goroutines are about to use the same element and one of them writes. -/
def Race (x : St T) : Prop := ∃ t t' b b' a i, t ≠ t' ∧ next (x.loc t) = some (b, a, i) ∧ next (x.loc t') = some (b', a, i) ∧ (b = true ∨ b' = true)

/-- At most `n` reads and writes are left. -/
inductive Within {α : Type} : Nat → Prog T α → Prop
  | done {n o} : Within n (.done o)
  | read {n a i k} : (∀ v, Within n (k v)) → Within (n + 1) (.read a i k)
  | write {n a i v k} : Within n k → Within (n + 1) (.write a i v k)

end Verif.SlicePar
