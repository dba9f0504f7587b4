import Verif.CloseConc.Model
/-!
# What users of a `CloseManager` rely on when several goroutines use it
-/
namespace Verif.CloseConc

/-- A manager seen from outside: the closers appended so far, and the `Close` that is going on: whose it is and
which closers it has still to close. -/
structure Seq where
  have_ : List Nat
  going : Option (Nat × List Nat)
  deriving DecidableEq

/-- One manager used by one call at a time: `none` is an event that must not happen. A `Close` closes exactly what
was appended before it, in that order, and nothing is appended and no other `Close` begins until it ends. -/
def Seq.next (m : Nat) (q : Seq) : Ev → Option Seq
  | .added _ m' c => if m' = m then (if q.going = none then some ⟨q.have_ ++ [c], none⟩ else none) else some q
  | .began t m' => if m' = m then (if q.going = none then some ⟨q.have_, some (t, q.have_)⟩ else none) else some q
  | .closed t m' c =>
    if m' = m then
      match q.going with
      | some (t', c' :: cs) => if t' = t ∧ c' = c then some ⟨q.have_, some (t', cs)⟩ else none
      | _ => none
    else some q
  | .ended t m' => if m' = m then (if q.going = some (t, []) then some ⟨q.have_, none⟩ else none) else some q

/-- The manager after the events; `none`: one of them must not have happened. -/
def replay (m : Nat) : Seq → List Ev → Option Seq
  | q, [] => some q
  | q, e :: l => match q.next m e with
    | none => none
    | some q => replay m q l

/-- All goroutines have made all their calls. -/
def AllDone (s : St) : Prop := ∀ t, s.thr t = []

/-- Some goroutine can go on. -/
def CanStep (body : Nat → List Call) (s : St) : Prop := ∃ t s', Step body t s s'

/-- The manager of a call. -/
def Call.mgr : Call → Nat
  | .append m _ => m
  | .close m => m

/-- The managers are ranked: the call appends to a manager only closers that use managers of lower ranks. -/
def Call.ranked (body : Nat → List Call) (rank : Nat → Nat) : Call → Prop
  | .append m c => ∀ a ∈ body c, rank a.mgr < rank m
  | .close _ => True

/-- A goroutine seen from outside: the calls it has to make, and the `Close` calls it is in. -/
inductive Item where
  | call (c : Call)
  | closing (m : Nat)
  deriving DecidableEq

/-- The events of goroutine `t` follow its program: `none` is an event that must not happen. Between the `closed` of a
closer and the next event of the `Close` around it come the calls of the closer. -/
def follow (body : Nat → List Call) (t : Nat) : List Item → List Ev → Option (List Item)
  | p, [] => some p
  | p, .added u m c :: l =>
    if u = t then
      match p with
      | .call (.append m' c') :: p => if m' = m ∧ c' = c then follow body t p l else none
      | _ => none
    else follow body t p l
  | p, .began u m :: l =>
    if u = t then
      match p with
      | .call (.close m') :: p => if m' = m then follow body t (.closing m :: p) l else none
      | _ => none
    else follow body t p l
  | p, .closed u m c :: l =>
    if u = t then
      match p with
      | .closing m' :: p => if m' = m then follow body t ((body c).map .call ++ .closing m :: p) l else none
      | _ => none
    else follow body t p l
  | p, .ended u m :: l =>
    if u = t then
      match p with
      | .closing m' :: p => if m' = m then follow body t p l else none
      | _ => none
    else follow body t p l

end Verif.CloseConc
