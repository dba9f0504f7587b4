import Verif.SyncMap.Lemmas
/-!
# Model of `dsx/mapx/syncmapx` with keys that cannot be hashed

`comparable` admits interface types, and so keys (a slice in an `any`, for instance) at which every access to the
Go map panics; `bad` says which. None of the methods defers its unlock, so a call that panics keeps the lock.

The steps are those of `Verif.SyncMap`. A call with a bad key never takes its `access` step: it stays in `body`,
that is, between the lock and the access, for good. A goroutine that recovers from the panic and goes on is counted
as another goroutine from there; `sync.RWMutex` does not know which goroutine holds it.

Here a blocked `Lock` also keeps new readers out, as in `sync.RWMutex`: `pend` is the writer that has announced
itself and waits for the readers to leave.
-/
namespace Verif.SyncPanic
open Verif.Conc Verif.SyncMap

variable {K V : Type} [DecidableEq K] [DecidableEq V] [Inhabited V]

/-- The key that a call looks up in the Go map: syncmapx.go:19, 26, 60, 66. -/
def keyOf : Call K V → Option K
  | .get k => some k
  | .has k => some k
  | .set k _ => some k
  | .delete k => some k
  | _ => none

/-- The access of this call panics. -/
def Panics (bad : K → Prop) (c : Call K V) : Prop := ∃ k, keyOf c = some k ∧ bad k

/-- The map with its goroutines, and the announced writer of its `sync.RWMutex`. -/
structure PSt (K V : Type) where
  st : St K V
  pend : Option Nat

/-- One step of one goroutine. -/
inductive PStep (bad : K → Prop) : PSt K V → PSt K V → Prop
  | invoke {s : PSt K V} {t c} : s.st.pc t = .idle →
      PStep bad s { s with st := { s.st with pc := setPc s.st.pc t (.want s.st.next c), next := s.st.next + 1,
                                             hist := s.st.hist ++ [.inv s.st.next c] } }
  /-- `RLock`: no writer is inside or has announced itself -/
  | rlock {s : PSt K V} {t id c} : s.st.pc t = .want id c → mode c = .read → s.st.writer = none → s.pend = none →
      PStep bad s { s with st := { s.st with pc := setPc s.st.pc t (.body id c []), readers := t :: s.st.readers } }
  /-- `Lock`, first half: keeps out other writers and new readers -/
  | announce {s : PSt K V} {t id c} : s.st.pc t = .want id c → mode c = .write → s.st.writer = none →
      s.pend = none → PStep bad s { s with pend := some t }
  /-- `Lock`, second half: the readers have left -/
  | lock {s : PSt K V} {t id c} : s.st.pc t = .want id c → mode c = .write → s.st.writer = none →
      s.pend = some t → s.st.readers = [] →
      PStep bad s { st := { s.st with pc := setPc s.st.pc t (.body id c []), writer := some t }, pend := none }
  | iter {s : PSt K V} {t id c acc e} : s.st.pc t = .body id c acc → (c = .keys ∨ c = .values) → e ∈ s.st.m →
      e ∉ acc → PStep bad s { s with st := { s.st with pc := setPc s.st.pc t (.body id c (acc ++ [e])) } }
  /-- the access, which a bad key does not get past -/
  | access {s : PSt K V} {t id c acc r m'} : s.st.pc t = .body id c acc → ¬ Panics bad c →
      finish s.st.m c acc = some (r, m') →
      PStep bad s { s with st := { s.st with pc := setPc s.st.pc t (.held id c r), m := m' } }
  | runlock {s : PSt K V} {t id c r} : s.st.pc t = .held id c r → mode c = .read →
      PStep bad s { s with st := { s.st with pc := setPc s.st.pc t (.out id c r),
                                             readers := s.st.readers.erase t } }
  | unlock {s : PSt K V} {t id c r} : s.st.pc t = .held id c r → mode c = .write →
      PStep bad s { s with st := { s.st with pc := setPc s.st.pc t (.out id c r), writer := none } }
  | ret {s : PSt K V} {t id c r} : s.st.pc t = .out id c r →
      PStep bad s { s with st := { s.st with pc := setPc s.st.pc t .idle, hist := s.st.hist ++ [.ret id r] } }

/-- The new map. -/
def start : PSt K V := { st := init, pend := none }

/-- States some schedule reaches. -/
inductive PReach (bad : K → Prop) : PSt K V → Prop
  | init : PReach bad start
  | step {s s'} : PReach bad s → PStep bad s s' → PReach bad s'

/-- A schedule from one state to another. -/
inductive PSteps (bad : K → Prop) : PSt K V → PSt K V → Prop
  | refl (s) : PSteps bad s s
  | step {s s' s''} : PSteps bad s s' → PStep bad s' s'' → PSteps bad s s''

end Verif.SyncPanic
