import Verif.MapFair.Lemmas
import Verif.SyncKey.Props
import Verif.SklShare.Props
import Verif.OrdShare.Props
import Verif.HandOut.Props
/-!
# C175: no call on a locked container waits for ever
-/
namespace Verif.MapFair
open Verif.Conc Verif.Conc.RW Verif.SyncAny

/-- **C175.** Concurrent map: in every fair execution every call returns, however many calls the goroutines go on to make. For every key type. -/
theorem C175_syncmap {K V : Type} [Inhabited V] {eq : K → K → Bool} {e : Nat → FSt _ _ _ _} {who : Nat → Option Nat}
    (x : Exec (SyncKey.syncmap (K := K) (V := V) eq) e who) (fr : FairRun (SyncKey.syncmap eq) e who) : AllReturn fun n => (e n).s.hist :=
  fun _ _ _ h => all_calls_return (μ := fun m _ acc => m.length - acc.length) SyncKey.readsOnly SyncKey.live (fun _ _ _ _ _ st => SyncKey.shrinks _ _ _ _ st) x fr h

/-- Until then it has been behaving like one map, at every moment. -/
theorem C175_atomic {K V : Type} [Inhabited V] {eq : K → K → Bool} (pe : PartialEq eq) {e : Nat → FSt _ _ _ _} {who : Nat → Option Nat}
    (x : Exec (SyncKey.syncmap (K := K) (V := V) eq) e who) (n : Nat) : Linearizable (SyncKey.histObj eq) (e n).s.hist :=
  SyncKey.C106_linearizable pe (x.reach n)

/-- The same for a skip-list map and an ordered map that a program shares behind a `sync.RWMutex`. -/
theorem C175_sorted {K V : Type} [Go.GoOrdered K] [Go.LawfulOrdered K] [DecidableEq K] [Inhabited K] [Inhabited V] {seed : BitVec 64} {who : Nat → Option Nat} :
    (∀ {e : Nat → FSt _ _ _ _}, Exec (SklShare.shared K V seed) e who → FairRun (SklShare.shared K V seed) e who → AllReturn fun n => (e n).s.hist) ∧
    ∀ {e : Nat → FSt _ _ _ _}, Exec (OrdShare.shared K V seed) e who → FairRun (OrdShare.shared K V seed) e who → AllReturn fun n => (e n).s.hist :=
  ⟨fun x fr _ _ _ h => all_calls_return SklShare.readsOnly SklShare.live SklShare.shrinks x fr h,
    fun x fr _ _ _ h => all_calls_return OrdShare.readsOnly OrdShare.live OrdShare.shrinks x fr h⟩

/-- And for the stacks and queues behind a mutex, with a deferred unlock: also the calls that panic end. -/
theorem C175_handed {T : Type} [Inhabited T] {who : Nat → Option Nat} :
    (∀ (h : Go.Hp T) {e : Nat → FSt _ _ _ _}, Exec (HandOut.sliceStack h) e who → FairRun (HandOut.sliceStack h) e who → AllReturn fun n => (e n).s.hist) ∧
    (∀ {e : Nat → FSt _ _ _ _}, Exec (HandOut.linkedStack T) e who → FairRun (HandOut.linkedStack T) e who → AllReturn fun n => (e n).s.hist) ∧
    (∀ {e : Nat → FSt _ _ _ _}, Exec (HandOut.linkedQueue T) e who → FairRun (HandOut.linkedQueue T) e who → AllReturn fun n => (e n).s.hist) ∧
    ∀ (q : Ring.Ring T) {e : Nat → FSt _ _ _ _}, Exec (HandOut.ringQueue q) e who → FairRun (HandOut.ringQueue q) e who → AllReturn fun n => (e n).s.hist := by
  obtain ⟨t1, t2, t3, t4⟩ := HandOut.C158_total (T := T)
  have sh : ∀ {σ C : Type} {init : σ} {call : σ → C → Linked.Res T → σ → Prop}, ShrinksFrom (HandOut.behind init call) fun _ _ _ => 0 :=
    fun _ _ _ _ _ st => HandOut.behind_shrinks _ _ _ _ st
  exact ⟨fun _ _ x fr _ _ _ h => all_calls_return HandOut.behind_reads (HandOut.behind_live t1) sh x fr h,
    fun x fr _ _ _ h => all_calls_return HandOut.behind_reads (HandOut.behind_live t2) sh x fr h,
    fun x fr _ _ _ h => all_calls_return HandOut.behind_reads (HandOut.behind_live t3) sh x fr h,
    fun _ _ x fr _ _ _ h => all_calls_return HandOut.behind_reads (HandOut.behind_live t4) sh x fr h⟩

/-- It is the lock's doing: with a lock that lets readers pass a waiting writer, an execution that is fair in the same way has a `Set` that never returns, with two
goroutines that do nothing but ask for the size. -/
theorem C175_needs_preference : ∃ (e : Nat → SyncKey.St Nat Nat) (who : Nat → Nat), Free (SyncKey.syncmap (K := Nat) (V := Nat) natEq) e who ∧
    Event.inv 1 (.set 7 7) ∈ (e 0).hist ∧ ∀ n r, Event.ret 1 r ∉ (e n).hist :=
  ⟨run', turn', run_free, by simp [run', pass, past, base, at'], run_ret⟩

/-- The lock and the fairness exclude nothing: whatever happens up to a moment when no call is open happens in a fair execution. For any object. -/
theorem C175_schedules {σ A C R : Type} {g : Guarded σ A C R} {s : St σ A C R} (h : Reach g s) (hi : ∀ t, s.pc t = .idle) :
    ∃ e who n, Exec g e who ∧ FairRun g e who ∧ (e n).s = s := fair_runs h hi

/-- There are such executions: one goroutine asks for a key, the other stores under it, for ever, and they meet in every round. -/
example : Exec (SyncKey.syncmap (K := Nat) (V := Nat) natEq) run turn ∧ FairRun (SyncKey.syncmap natEq) run turn ∧
    (∀ k, (run (11 * k + 4)).s.readers = [0] ∧ (run (11 * k + 4)).ann = some 1) ∧ ∀ k, Event.inv (2 * k) (.has 7) ∈ (run (11 * k + 1)).s.hist := by
  refine ⟨run_exec, run_fair, fun k => ?_, fun k => ?_⟩
  · have h1 : (11 * k + 4) / 11 = k := by omega
    have h2 : (11 * k + 4) % 11 = 4 := by omega
    rw [run, h1, h2]
    exact ⟨rfl, rfl⟩
  · have h1 : (11 * k + 1) / 11 = k := by omega
    have h2 : (11 * k + 1) % 11 = 1 := by omega
    rw [run, h1, h2]
    simp [moment, s1]

/-- In it the 100th store returns. -/
example : ∃ m r, Event.ret 199 r ∈ (run m).s.hist := by
  obtain ⟨m, r, -, h⟩ := C175_syncmap run_exec run_fair (11 * 99 + 2) 199 (.set 7 7) (by
    show _ ∈ (run (11 * 99 + 2)).s.hist
    rw [run, show (11 * 99 + 2) / 11 = 99 from rfl, show (11 * 99 + 2) % 11 = 2 from rfl]
    simp [moment, s2])
  exact ⟨m, r, h⟩

end Verif.MapFair
