import Verif.BitShare.Model
/-!
# What goroutines that share a bit set rely on
-/
namespace Verif.BitShare
open Verif.BitSet Verif.Go

variable {w : Nat}

/-- The result of a method without result. -/
def unitRes : Outcome Unit → Res
  | .ret _ => .void
  | _ => .panic

def boolRes : Outcome Bool → Res
  | .ret b => .bool b
  | _ => .panic

/-- A call by the only user of the bit set: the methods of C32. -/
def doCall (d : BitVec w) (c : Call) : BitVec w × Res :=
  match c.op with
  | .set => ((set d c.is).1, unitRes (set d c.is).2)
  | .clear => ((clear d c.is).1, unitRes (clear d c.is).2)
  | .toggle => ((toggle d c.is).1, unitRes (toggle d c.is).2)
  | .test => (d, boolRes (test d c.is))

/-- Calls by the only user: the word afterwards and the results. -/
def alone (d : BitVec w) : List Call → BitVec w × List Res
  | [] => (d, [])
  | c :: cs => ((alone (doCall d c).1 cs).1, (doCall d c).2 :: (alone (doCall d c).1 cs).2)

/-- The calls name bit `k`. -/
def Names (cs : List Call) (k : Nat) : Prop := ∃ c ∈ cs, (k : Int) ∈ c.is

/-- The goroutines use different bits. -/
def Apart (w : Nat) (prog : Nat → List Call) : Prop := ∀ t u k, t ≠ u → k < w → Names (prog t) k → ¬ Names (prog u) k

/-- The goroutine has made all its calls. -/
def Th.Finished (h : Th w) : Prop := h.calls = [] ∧ h.pc = .idle

/-- The goroutine is about to read the word. -/
def Th.Reads (h : Th w) : Prop := ∃ op t i is, h.pc = .loop op t (i :: is) ∧ 0 ≤ i ∧ (op = .test → t = false)

/-- The goroutine is about to write the word. -/
def Th.Writes (h : Th w) : Prop := ∃ op i is reg, h.pc = .mid op i is reg

/-- **C161 (full statement).** Goroutines that use different bits of one bit set get the results they would get alone, with or without a mutex. -/
def C161_full : Prop := ∀ (w : Nat) (locked : Bool) (d : BitVec w) (prog : Nat → List Call), Apart w prog → ∀ s, Reach locked d prog s →
  ∀ t, (s.thr t).res <+: (alone d (prog t)).2

end Verif.BitShare
