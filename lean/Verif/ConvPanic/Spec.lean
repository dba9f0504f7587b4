import Verif.ConvPanic.Model
import Verif.ConvConc.Spec
/-!
# What users of the registry rely on when converters panic

`Does` says what a program does, with no word about locks or stacks: the changes and lookups it makes, in order,
and how it ends.
-/
namespace Verif.ConvPanic

open ConvConc (Op W Ev)

variable {K : Type} [DecidableEq K]

/-- A program returns, panics, or ends its goroutine. -/
inductive End where
  | returns
  | panics
  | exits
  deriving DecidableEq

/-- A change, or a lookup with its answer. -/
inductive Did (K : Type) where
  | change (o : Op K)
  | look (k : K) (run : Bool) (found : Option Nat)

/-- `Does body p l e`: `p` makes the changes and lookups `l` (whatever the answers) and ends with `e`. -/
inductive Does (body : Nat → Prog K) : Prog K → List (Did K) → End → Prop where
  | done : Does body .done [] .returns
  | panic : Does body .panic [] .panics
  | exit : Does body .exit [] .exits
  | op {o p l e} : Does body p l e → Does body (.op o p) (.change o :: l) e
  /-- `Exists`, or `Into` without a converter: goes on. -/
  | exist {k f p l e} : Does body p l e → Does body (.look k false p) (.look k false f :: l) e
  | none {k run p l e} : Does body p l e → Does body (.look k run p) (.look k run none :: l) e
  /-- `Into` with a converter that returns. -/
  | conv {k c p l l' e} : Does body (body c) l .returns → Does body p l' e →
      Does body (.look k true p) (.look k true (some c) :: (l ++ l')) e
  /-- `Into` with a converter that does not: the caller does not go on. -/
  | torn {k c p l e} : Does body (body c) l e → e ≠ .returns → Does body (.look k true p) (.look k true (some c) :: l) e
  /-- A function that recovers: goes on unless the goroutine ends. -/
  | guard {q p l l' e e'} : Does body q l e → e ≠ .exits → Does body p l' e' → Does body (.guard q p) (l ++ l') e'
  | quit {q p l} : Does body q l .exits → Does body (.guard q p) l .exits

/-- What goroutine `t` did. -/
def didOf (t : Nat) : List (Ev K) → List (Did K)
  | [] => []
  | .wrote u o :: l => if u = t then .change o :: didOf t l else didOf t l
  | .read u k run f :: l => if u = t then .look k run f :: didOf t l else didOf t l

/-- The goroutine is about to access the map. -/
def Writing (l : List (Act K)) : Prop := ∃ o rest, l = .wr o :: rest
def Reading (l : List (Act K)) : Prop := ∃ k run rest, l = .rd k run :: rest

/-- The goroutine has come to its end, or has ended the process with a panic. -/
def Over (l : List (Act K)) : Prop := l = [] ∨ l = [.abort false]

/-- The program makes no use of the registry. -/
def Prog.alone : Prog K → Prop
  | .done => True
  | .op _ _ => False
  | .look _ _ _ => False
  | .guard q p => q.alone ∧ p.alone
  | .panic => True
  | .exit => True

/-- The program does not change the registry. -/
def Prog.readOnly : Prog K → Prop
  | .done => True
  | .op _ _ => False
  | .look _ _ p => p.readOnly
  | .guard q p => q.readOnly ∧ p.readOnly
  | .panic => True
  | .exit => True

end Verif.ConvPanic
