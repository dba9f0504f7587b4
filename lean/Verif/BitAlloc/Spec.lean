import Verif.BitAlloc.Model
/-!
# Specification for C181: handing out numbers
-/
namespace Verif.BitAlloc
open Verif.Conc
open Verif.Linked (Res)

/-- A pool of the numbers below `n`, with those in use: `alloc` gives the smallest that is not in use. -/
def numbers (n : Nat) : Obj (Nat → Prop) Call (Res Nat) := ⟨fun _ => False, fun U c r U' =>
  match c with
  | .alloc => (∃ i, r = .val i ∧ i < n ∧ ¬ U i ∧ (∀ j, j < i → U j) ∧ ∀ j, U' j ↔ j = i ∨ U j) ∨ r = .none ∧ (∀ i, i < n → U i) ∧ ∀ j, U' j ↔ U j
  | .free i => (0 ≤ i ∧ r = .unit ∨ i < 0 ∧ r = .panic) ∧ ∀ j, U' j ↔ U j ∧ (j : Int) ≠ i
  | .used i => (0 ≤ i ∧ (∃ t, r = .bool t ∧ (t = true ↔ U i.toNat)) ∨ i < 0 ∧ r = .panic) ∧ ∀ j, U' j ↔ U j⟩

/-- The call `f` gives `i` back, after `a` was called and before `b` has returned, as far as one can tell. -/
def Between (h : List (Event Call (Res Nat))) (i a b f : Nat) : Prop :=
  .inv f (.free i) ∈ h ∧ (∀ r c, ¬ Before h (.ret f r) (.inv a c)) ∧ ∀ r c, ¬ Before h (.ret b r) (.inv f c)

/-- A number is not handed out a second time unless it was given back in between. -/
def Exclusive (h : List (Event Call (Res Nat))) : Prop :=
  ∀ a b i, a ≠ b → .inv a .alloc ∈ h → .inv b .alloc ∈ h → .ret a (.val i) ∈ h → .ret b (.val i) ∈ h →
    (∀ r c, ¬ Before h (.ret b r) (.inv a c)) ∧ (∃ f, Between h i a b f) ∨ (∀ r c, ¬ Before h (.ret a r) (.inv b c)) ∧ ∃ f, Between h i b a f

/-- **C181 in full**: a program that looks for a free number below its limit, whatever the limit. -/
def C181_full : Prop := ∀ (w n : Nat) (s : RW.St (BitVec w) Unit Call (Res Nat)), RW.Reach (pool w (allocBelow n)) s → Exclusive s.hist

end Verif.BitAlloc
