import Verif.MapLoop.Model
/-!
# What a loop over a changing map finds
-/
namespace Verif.MapLoop
open Verif.Conc Verif.Conc.RW Verif.SyncMap Verif.SyncAny Verif.SyncKey

variable {K V Q : Type}

/-- No goroutine is inside its loop. -/
def Outside (l : Nat → Loop K V ⊕ Q) : Prop := ∀ t todo out, l t ≠ .inl (.go todo out)

/-- The entries were found one after the other, each as the map was at a moment not before the one before, from the map after `h` to the map after
`hist`. A missing entry is found as the zero value. -/
def Moments [Inhabited V] (eq : K → K → Bool) (h : List (Op K V)) : List (K × V) → List (Op K V) → Prop
  | [], hist => h <+: hist
  | e :: out, hist => ∃ h1, h <+: h1 ∧ e.2 = (lookup eq h1 e.1).getD default ∧ Moments eq h1 out hist

/-- The call changes what is stored under `k`. -/
def Touches (eq : K → K → Bool) (k : K) : Op K V → Prop
  | .set k' _ => eq k k' = true
  | .delete k' => eq k k' = true
  | .clear => True

/-- **C168 (full statement).** When a loop is done, what it found is what was in the map at some moment. -/
def C168_full : Prop := ∀ (K V Q : Type) [Inhabited V] (eq : K → K → Bool) (q : Client Q (Call K V) (Res K V)) (l : Nat → Loop K V ⊕ Q),
  PartialEq eq → Outside l → ∀ s, CReach (syncmap eq) (withLoop q) l s → ∀ t out, s.loc t = .inl (.go [] out) →
  ∃ s0, CReach (syncmap eq) (withLoop q) l s0 ∧ out.Perm s0.obj.m

end Verif.MapLoop
