import Verif.Prelude
import Verif.Go.Basic
/-!
# Model of `poolx/gopoolx/timedpool.go`

A transition system of any number of `Run` calls (one per job), worker goroutines, the collector
goroutine and `Stop` calls. A critical section of the pool's mutex is one step, since every variable it
guards is used only under it; the fields of a worker (`ch`, `tt`) and the channels are used outside it,
and each use is a step. Channels have capacity 1. `sync.Pool` holds some of the workers put into it: `Get`
gives any of them or a new one, and it may forget any of them. Handlers return (a handler that never
does just stays; a panicking handler ends the program). Times are any integers.
-/
namespace Verif.GoPool
open Verif.Go

/-- A `Run` call, timedpool.go:144-173. -/
inductive JobPc where
  | new
  | called             -- before the critical section
  | sending (w : Nat)  -- line 171
  | accepted           -- returned true
  | rejected           -- returned false
  deriving DecidableEq

/-- A worker goroutine, timedpool.go:32-43, 131-142. -/
inductive GorPc where
  | unborn
  | start (w : Nat)                  -- created; about to evaluate `w.ch` in line 33
  | recv (w : Nat) (c : Option Nat)  -- line 33, waiting on that channel (`none`: nil)
  | handling (w c j : Nat)           -- line 34
  | stamp (w c : Nat)                -- line 132
  | free (w c : Nat)                 -- line 133, before the critical section
  | exiting                          -- line 40
  | dead
  deriving DecidableEq

/-- The collector goroutine, timedpool.go:63-128. -/
inductive GcPc where
  | idle                             -- line 70, the select
  | closing (ws : List Nat)          -- line 104, workers left to stop
  | clearing (w : Nat) (ws : List Nat) -- line 106
  | putting (w : Nat) (ws : List Nat)  -- line 108
  | stopping                         -- line 114
  | dead
  deriving DecidableEq

/-- A `Stop` call, timedpool.go:207-213. -/
inductive StopPc where
  | new
  | sending    -- line 211
  | sent       -- line 212
  | returned
  deriving DecidableEq

structure St where
  maxWorkers : Int
  workers : Int
  dobby : List Nat
  ch : Nat → Option Nat      -- field `ch` of each worker
  tt : Nat → Int             -- field `tt`
  nextW : Nat
  pool : List Nat            -- what `sync.Pool` holds
  buf : Nat → Option Nat     -- the job in the buffer of each channel
  closed : Nat → Bool
  nextC : Nat
  job : Nat → JobPc
  gor : Nat → GorPc
  nextG : Nat
  gc : GcPc
  stopSet : Bool             -- `pool.stop != nil`
  stop : Nat → StopPc
  handled : Nat → Nat        -- how often the handler was called with each job
  crashed : Bool             -- send on a closed channel, close of a closed or nil channel, index out of range

/-- timedpool.go:45-61 and 182-205: a new pool. The preheated workers' goroutines exist; none has run yet
(one that has run is only a step further). -/
def init (maxWorkers : Int) (preheat : Nat) (t : Nat → Int) : St where
  maxWorkers := maxWorkers
  workers := preheat
  dobby := List.range preheat
  ch := fun w => if w < preheat then some w else none
  tt := t
  nextW := preheat
  pool := []
  buf := fun _ => none
  closed := fun _ => false
  nextC := preheat
  job := fun _ => .new
  gor := fun k => if k < preheat then .start k else .unborn
  nextG := preheat
  gc := .idle
  stopSet := true
  stop := fun _ => .new
  handled := fun _ => 0
  crashed := false

def St.setJob (s : St) (j : Nat) (p : JobPc) : St := { s with job := fun i => if i = j then p else s.job i }
def St.setGor (s : St) (k : Nat) (p : GorPc) : St := { s with gor := fun i => if i = k then p else s.gor i }
def St.setStop (s : St) (k : Nat) (p : StopPc) : St := { s with stop := fun i => if i = k then p else s.stop i }

/-- timedpool.go:159-163: the worker `w` gets a new channel and a goroutine. -/
def St.spawn (s : St) (w : Nat) : St :=
  { s with workers := s.workers + 1, ch := fun i => if i = w then some s.nextC else s.ch i, nextC := s.nextC + 1,
           gor := fun i => if i = s.nextG then .start w else s.gor i, nextG := s.nextG + 1 }

/-- timedpool.go:86-95, the binary search (`none`: index out of range). -/
def cutLoop (ts : List Int) (now : Int) (l r : Nat) : Option Nat :=
  if l < r then
    match ts[(l + r) / 2]? with
    | none => none
    | some t => if t < now then cutLoop ts now ((l + r) / 2 + 1) r else cutLoop ts now l ((l + r) / 2)
  else some l
termination_by r - l
decreasing_by all_goals omega

/-- timedpool.go:84-95: how many workers at the front of `dobby` to stop. -/
def cut (ts : List Int) (now : Int) : Option Nat := if ts.length > 0 then cutLoop ts now 0 ts.length else some 0

/-- timedpool.go:75-77 and 116-123: close the channels of some workers (`none`: panic). -/
def closeAll (ch : Nat → Option Nat) : List Nat → (Nat → Bool) → Option (Nat → Bool)
  | [], cl => some cl
  | w :: ws, cl =>
    match ch w with
    | none => none
    | some c => if cl c then none else closeAll ch ws (fun x => if x = c then true else cl x)

inductive Step : St → St → Prop where
  -- Run
  | call (s) (j : Nat) : s.job j = .new → Step s (s.setJob j .called)
  | runDraining (s) (j : Nat) : s.job j = .called → s.maxWorkers = -1 → Step s (s.setJob j .rejected)
  | runReuse (s) (j : Nat) (ws : List Nat) (w : Nat) : s.job j = .called → s.maxWorkers ≠ -1 → s.dobby = ws ++ [w] →
      Step s ({ s with dobby := ws }.setJob j (.sending w))
  | runPooled (s) (j w : Nat) (p p' : List Nat) : s.job j = .called → s.maxWorkers ≠ -1 → s.dobby = [] →
      s.workers < s.maxWorkers → s.pool = p ++ w :: p' →
      Step s (({ s with pool := p ++ p' }.spawn w).setJob j (.sending w))
  | runFresh (s) (j : Nat) : s.job j = .called → s.maxWorkers ≠ -1 → s.dobby = [] → s.workers < s.maxWorkers →
      Step s (({ s with nextW := s.nextW + 1 }.spawn s.nextW).setJob j (.sending s.nextW))
  | runFull (s) (j : Nat) : s.job j = .called → s.maxWorkers ≠ -1 → s.dobby = [] → ¬ s.workers < s.maxWorkers →
      Step s (s.setJob j .rejected)
  | send (s) (j w c : Nat) : s.job j = .sending w → s.ch w = some c → s.closed c = false → s.buf c = none →
      Step s ({ s with buf := fun x => if x = c then some j else s.buf x }.setJob j .accepted)
  | sendCrash (s) (j w c : Nat) : s.job j = .sending w → s.ch w = some c → s.closed c = true →
      Step s { s with crashed := true }
  -- worker goroutines
  | begin (s) (k w : Nat) : s.gor k = .start w → Step s (s.setGor k (.recv w (s.ch w)))
  | take (s) (k w c j : Nat) : s.gor k = .recv w (some c) → s.buf c = some j →
      Step s ({ s with buf := fun x => if x = c then none else s.buf x,
                       handled := fun i => if i = j then s.handled i + 1 else s.handled i }.setGor k (.handling w c j))
  | rangeEnd (s) (k w c : Nat) : s.gor k = .recv w (some c) → s.buf c = none → s.closed c = true →
      Step s (s.setGor k .exiting)
  | handled (s) (k w c j : Nat) : s.gor k = .handling w c j → Step s (s.setGor k (.stamp w c))
  | stamp (s) (k w c : Nat) (t : Int) : s.gor k = .stamp w c →
      Step s ({ s with tt := fun x => if x = w then t else s.tt x }.setGor k (.free w c))
  | freeDraining (s) (k w c : Nat) : s.gor k = .free w c → s.maxWorkers = -1 →
      Step s ({ s with workers := s.workers - 1 }.setGor k .dead)
  | freeBack (s) (k w c : Nat) : s.gor k = .free w c → s.maxWorkers ≠ -1 →
      Step s ({ s with dobby := s.dobby ++ [w] }.setGor k (.recv w (some c)))
  | exit (s) (k : Nat) : s.gor k = .exiting → Step s ({ s with workers := s.workers - 1 }.setGor k .dead)
  -- the collector
  | tick (s) (now : Int) (l : Nat) : s.gc = .idle → s.maxWorkers ≠ -1 → cut (s.dobby.map s.tt) now = some l →
      Step s { s with dobby := s.dobby.drop l, gc := .closing (s.dobby.take l) }
  | tickCrash (s) (now : Int) : s.gc = .idle → s.maxWorkers ≠ -1 → cut (s.dobby.map s.tt) now = none →
      Step s { s with crashed := true }
  | tickDraining (s) (cl) : s.gc = .idle → s.maxWorkers = -1 → closeAll s.ch s.dobby s.closed = some cl →
      Step s { s with closed := cl, gc := .dead }
  | tickDrainingCrash (s) : s.gc = .idle → s.maxWorkers = -1 → closeAll s.ch s.dobby s.closed = none →
      Step s { s with crashed := true }
  | closeOne (s) (w : Nat) (ws : List Nat) (c : Nat) : s.gc = .closing (w :: ws) → s.ch w = some c → s.closed c = false →
      Step s { s with closed := fun x => if x = c then true else s.closed x, gc := .clearing w ws }
  | closeCrash (s) (w : Nat) (ws : List Nat) : s.gc = .closing (w :: ws) → (∀ c, s.ch w = some c → s.closed c = true) →
      Step s { s with crashed := true }
  | clearOne (s) (w : Nat) (ws : List Nat) : s.gc = .clearing w ws →
      Step s { s with tt := fun x => if x = w then 0 else s.tt x, ch := fun x => if x = w then none else s.ch x,
                      gc := .putting w ws }
  | putOne (s) (w : Nat) (ws : List Nat) : s.gc = .putting w ws → Step s { s with pool := w :: s.pool, gc := .closing ws }
  | collected (s) : s.gc = .closing [] → Step s { s with gc := .idle }
  | poolForget (s) (w : Nat) (p p' : List Nat) : s.pool = p ++ w :: p' → Step s { s with pool := p ++ p' }
  -- Stop
  | stopCall (s) (k : Nat) : s.stop k = .new → s.stopSet = true → Step s (s.setStop k .sending)
  | stopNil (s) (k : Nat) : s.stop k = .new → s.stopSet = false → Step s (s.setStop k .returned)
  | stopSignal (s) (k : Nat) : s.stop k = .sending → s.stopSet = true → s.gc = .idle →
      Step s ({ s with gc := .stopping }.setStop k .sent)
  | stopClear (s) (k : Nat) : s.stop k = .sent → Step s ({ s with stopSet := false }.setStop k .returned)
  | stopAll (s) (cl) : s.gc = .stopping → closeAll s.ch s.dobby s.closed = some cl →
      Step s { s with maxWorkers := -1, closed := cl, gc := .dead }
  | stopAllCrash (s) : s.gc = .stopping → closeAll s.ch s.dobby s.closed = none → Step s { s with crashed := true }

/-- timedpool.go:175-180. -/
inductive ConfErr where
  | maxWorkers | handler | idleTimeout | gcPeriod
  deriving DecidableEq

/-- timedpool.go:182-205. `t`: the clock readings of line 57. -/
def newTimedPool (maxWorkers : Int) (handlerNil : Bool) (idleTimeout gcPeriod : Int) (preheat : Int) (t : Nat → Int) :
    Except ConfErr St :=
  if maxWorkers ≤ 0 then .error .maxWorkers
  else if handlerNil then .error .handler
  else if idleTimeout ≤ 0 then .error .idleTimeout
  else if gcPeriod ≤ 0 then .error .gcPeriod
  else .ok (init maxWorkers preheat.toNat t)

/-- The states executions reach from a pool made by `NewTimedPool` with these arguments. -/
inductive Reach (maxWorkers : Int) (preheat : Nat) : St → Prop where
  | init (t : Nat → Int) : Reach maxWorkers preheat (init maxWorkers preheat t)
  | step {s s' : St} : Reach maxWorkers preheat s → Step s s' → Reach maxWorkers preheat s'

end Verif.GoPool
