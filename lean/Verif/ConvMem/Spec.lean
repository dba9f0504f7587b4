import Verif.ConvMem.Model
/-!
# Separate slices
-/
namespace Verif.ConvMem
open Verif.Go

/-- What the holder of a slice can do to the memory through it: change elements up to the capacity (by index, or by appending to a part
of it), and allocate. -/
def WritesThrough {T : Type} (s : Sl) (h h' : Hp T) : Prop :=
  h.brk ≤ h'.brk ∧ ∀ a i, a < h.brk → (a ≠ s.arr ∨ i < s.off ∨ s.off + s.cap ≤ i) → h'.mem a i = h.mem a i

/-- Whatever is done through one slice is not seen through the other. -/
def Separate {T : Type} (h : Hp T) (s t : Sl) : Prop :=
  (∀ h', WritesThrough s h h' → elems h' t = elems h t) ∧ (∀ h', WritesThrough t h h' → elems h' s = elems h s)

end Verif.ConvMem
