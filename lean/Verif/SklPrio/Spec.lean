import Verif.SklPrio.Model
import Verif.HandOut.Spec
/-!
# Specification for C180: a priority queue
-/
namespace Verif.SklPrio
open Verif.Go Verif.Conc
open Verif.Linked (Res)

variable {K V : Type} [GoOrdered K]

/-- A priority queue: a collection of entries, no two with the same key. `push` refuses a key that is in it, `pop` takes the entry with
the smallest key, `peek` shows it. -/
def prio (K V : Type) [GoOrdered K] : Obj (List (K × V)) (Call K V) (Res (K × V)) := ⟨[], fun l c r l' =>
  match c with
  | .push k v => (∃ v', (k, v') ∈ l) ∧ r = .bool false ∧ l' = l ∨ (∀ v', (k, v') ∉ l) ∧ r = .bool true ∧ l'.Perm ((k, v) :: l)
  | .pop => r = .none ∧ l = [] ∧ l' = [] ∨ ∃ e, r = .val e ∧ l.Perm (e :: l') ∧ ∀ y ∈ l', GoOrdered.lt e.1 y.1 = true
  | .peek => (r = .none ∧ l = [] ∨ ∃ e ∈ l, r = .val e ∧ ∀ y ∈ l, y = e ∨ GoOrdered.lt e.1 y.1 = true) ∧ l' = l
  | .len => r = .num l.length ∧ l' = l⟩

/-- Which calls put in and take out. -/
def kind : Call K V → HandOut.Kind (K × V)
  | .push k v => .put (k, v)
  | .pop => .take
  | .peek => .look
  | .len => .look

/-- The result is an entry with a key smaller than `k`. -/
def Smaller (k : K) (r : Res (K × V)) : Prop := ∃ k' v', r = .val (k', v') ∧ GoOrdered.lt k' k = true

/-- The call `q` is a `pop` whose result, if it has returned, is `e`; it did not return before `p` was called, and it was not called after `q'` had returned. -/
def TakenBy (h : List (Event (Call K V) (Res (K × V)))) (e : K × V) (p q' q : Nat) : Prop :=
  .inv q .pop ∈ h ∧ (∀ r, .ret q r ∈ h → r = .val e) ∧ (∀ r c, ¬ Before h (.ret q r) (.inv p c)) ∧ ∀ r c, ¬ Before h (.ret q' r) (.inv q c)

end Verif.SklPrio
