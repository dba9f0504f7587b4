import Verif.Slicex.Model
/-!
# The pieces of `Split` and `Batch` in use

`dsx/slicex/slicex.go:166-194`: every piece is a window of the array of the receiver. A program keeps
the pieces in variables and calls methods on them, in any order. The methods are those of
`Verif.Slicex.Model`; here is only how a call on one of the variables changes the memory and the
variables. Calls that panic change nothing here (`Set` and `DeleteReplace` check their index before they
write, slicex.go:33-37, 110-112).
-/
namespace Verif.SliceParts
open Verif.Go Verif.Slicex
variable {T : Type} [Inhabited T]

/-- A method call on a piece; `g`, `g1`, `g2`, `gs` are the surpluses `append` chooses, `lim` the bound of
`make`. slicex.go:15-164. -/
inductive Call (T : Type) where
  | set (i : Int) (v : T)
  | reverse
  | shuffle (draw : Nat → Nat)
  | filter (f : T → Bool)
  | clear
  | slice (i j : Int)
  | cut (i j : Int) (g1 g2 : Nat)
  | delete (i : Int) (g1 g2 : Nat)
  | pop (g1 g2 : Nat)
  | shift (g1 g2 : Nat)
  | deleteReplace (i : Int)
  | rep (lim : Nat) (gs : Nat → Nat) (n : Int)
  | push (v : T) (g1 g2 : Nat)
  | unShift (v : T) (g1 g2 : Nat)
  | insert (i : Int) (v : T) (g1 g2 : Nat)
  | extend (lim g : Nat) (n : Int)
  | rotate (n : Int) (g : Nat)

/-- The memory and the variable after the call. slicex.go:15-164. -/
def act (h : Hp T) (p : Sl) : Call T → Outcome (Hp T × Sl)
  | .set i v => (set h p i v).bind fun h => .ret (h, p)
  | .reverse => (reverse h p).bind fun h => .ret (h, p)
  | .shuffle draw => (shuffle h p draw).bind fun h => .ret (h, p)
  | .filter f => filter f h p
  | .clear => (clear p).bind fun p => .ret (h, p)
  | .slice i j => (slice p i j).bind fun p => .ret (h, p)
  | .cut i j g1 g2 => cut h g1 g2 p i j
  | .delete i g1 g2 => delete h g1 g2 p i
  | .pop g1 g2 => (pop h g1 g2 p).bind fun r => .ret r.1
  | .shift g1 g2 => (shift h g1 g2 p).bind fun r => .ret r.1
  | .deleteReplace i => deleteReplace h p i
  | .rep lim gs n => rep lim h gs p n
  | .push v g1 g2 => push h g1 g2 p v
  | .unShift v g1 g2 => unShift h g1 g2 p v
  | .insert i v g1 g2 => insert h g1 g2 p i v
  | .extend lim g n => extend lim h g p n
  | .rotate n g => rotate h g p n

/-- The calls that never write behind the last element of their receiver: all but the ones that add
elements, and `Rotate`, which appends the front part. -/
def Call.Tame : Call T → Prop
  | .push .. | .unShift .. | .insert .. | .extend .. | .rotate .. => False
  | _ => True

/-- What a program can have made of the pieces `r` by calls that satisfy `ok`, one after another, each on
one of its variables. -/
inductive Used (ok : Call T → Prop) (h : Hp T) (r : List Sl) : Hp T → List Sl → Prop where
  | start : Used ok h r h r
  | step {h1 r1 i p c h2 p2} : Used ok h r h1 r1 → r1[i]? = some p → ok c → act h1 p c = .ret (h2, p2) →
      Used ok h r h2 (r1.set i p2)

end Verif.SliceParts
