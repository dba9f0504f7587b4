import Verif.ConvConc.Model
/-!
# What users of the registry rely on when they use it from several goroutines
-/
namespace Verif.ConvConc

variable {K : Type} [DecidableEq K]

/-- The registration of `k` after the events `l`, the newest first: that of the newest change of `k`. -/
def latestR (m : K → Option Nat) (k : K) : List (Ev K) → Option Nat
  | [] => m k
  | .wrote _ (.reg k' c) :: l => if k' = k then some c else latestR m k l
  | .wrote _ (.unreg k') :: l => if k' = k then none else latestR m k l
  | .read .. :: l => latestR m k l

/-- The registration of `k` after the events `l`, the oldest first. -/
def latest (m : K → Option Nat) (k : K) (l : List (Ev K)) : Option Nat := latestR m k l.reverse

/-- The goroutine is about to access the map. -/
def Writing (l : List (Act K)) : Prop := ∃ o rest, l = .wr o :: rest
def Reading (l : List (Act K)) : Prop := ∃ k run rest, l = .rd k run :: rest

/-- All goroutines have made all their calls. -/
def AllDone (s : St K) : Prop := ∀ t, s.thr t = []

/-- Some goroutine can go on. -/
def CanStep (body : Nat → List (Call K)) (s : St K) : Prop := ∃ t s', Step body t s s'

/-- A call that does not change the registry. -/
def Call.readOnly : Call K → Prop
  | .op _ => False
  | _ => True

/-- The number of steps of a call: 4 for a change, 3 for a lookup. -/
def Call.cost : Call K → Nat
  | .op _ => 4
  | _ => 3

/-- The calls of goroutine `t` among the events. -/
def callsOf (t : Nat) : List (Ev K) → List (Call K)
  | [] => []
  | .wrote u o :: l => if u = t then .op o :: callsOf t l else callsOf t l
  | .read u k run _ :: l => if u = t then (if run then .into k else .exist k) :: callsOf t l else callsOf t l

end Verif.ConvConc
