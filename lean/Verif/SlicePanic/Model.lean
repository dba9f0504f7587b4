import Verif.Go.Slice
/-!
# Model of `Filter` of `dsx/slicex/slicex.go` with a callback that panics

The callback returns a boolean or panics (`none`); the caller of `Filter` recovers, so the memory after the panic
matters. The variable that holds the slice is assigned in line 153, which a panic leaves out. The other loops of
the package (`IndexOf`, `Contains`, `Each`, `ForEach`) write nothing.
-/
namespace Verif.SlicePanic
open Verif.Go

variable {T : Type}

/-- slicex.go:147-152, from element `k` on with `n` kept: the memory after it, and `n` if no call panicked. -/
def filterLoop (f : T → Option Bool) (s : Sl) : Nat → Nat → Nat → Hp T → Option Nat × Hp T
  | 0, _, n, h => (some n, h)
  | r + 1, k, n, h =>
    let v := h.mem s.arr (s.off + k)
    match f v with
    | none => (none, h)
    | some true => filterLoop f s r (k + 1) (n + 1) (h.blit s.arr (s.off + n) [v])
    | some false => filterLoop f s r (k + 1) n h

/-- slicex.go:145-155 `Filter`: whether it returned, the memory, the variable. `n` is not more than `len(*s)`, so
lines 149 and 153 do not panic (`Verif.Slicex.filter` checks that). -/
def filter (f : T → Option Bool) (h : Hp T) (s : Sl) : Bool × Hp T × Sl :=
  match filterLoop f s s.len 0 0 h with
  | (some n, h) => (true, h, { s with len := n })
  | (none, h) => (false, h, s)

end Verif.SlicePanic
