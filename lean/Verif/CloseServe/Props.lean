import Verif.CloseServe.Lemmas
import Verif.CloseMgr.Props
/-!
# C178: a close manager that goroutines share
-/
namespace Verif.CloseServe
open Verif.Conc Verif.Conc.RW Verif.CloseMgr

variable {W : Type} {w : W}

/-- **C178.** Whatever the goroutines append and close at the same time, the manager behaves like one list: every call takes place at one moment, a `Close` calls all
closers that are in the list then, once each and in order, and returns exactly their errors. -/
theorem C178_linearizable {s : St (Mgr W × W) (Acc W) (Call W) Res} (h : Reach (manager w) s) : Linearizable (listObj w) s.hist :=
  RW.sim Agree ⟨rfl, rfl⟩ (fun m m' c r t ag st => sim_step m m' c r t ag st) (RW.linearizable readsOnly h)

/-- It is the `Close` of C60. -/
theorem C178_same (m : Mgr W) (w w' : W) (es : List Err) : Closes m.list w es w' ↔ m.close w = (some (.list es), w') := by
  have one : ∀ {es w'}, Closes m.list w es w' → m.close w = (some (.list es), w') := fun h => by simp [Mgr.close, closeLoop_eq h]
  refine ⟨one, fun h => ?_⟩
  obtain ⟨es1, w1, h1⟩ := Closes.total m.list w
  rw [one h1] at h
  cases h
  exact h1

/-- **C178, one at a time.** While a `Close` is at work no other call is: no closer is appended, and no closer is called by another `Close`. -/
theorem C178_alone {s : St (Mgr W × W) (Acc W) (Call W) Res} (h : Reach (manager w) s) {t t' : Nat} {c c' : Call W} (ht : Accessing s t c) (ht' : Accessing s t' c') :
    t' = t := RW.no_race readsOnly h ht ht' rfl

/-- **C178, all calls return,** however many there are. -/
theorem C178_all_return {e : Nat → FSt _ _ _ _} {who : Nat → Option Nat} (x : Exec (manager w) e who) (fr : FairRun (manager w) e who) :
    MapFair.AllReturn fun n => (e n).s.hist :=
  fun _ _ _ h => all_calls_return readsOnly live shrinks x fr h

/-- **C178, a closer whose `Append` has returned** is called by every `Close` that starts later. All that such a `Close` calls has been appended; what it returns is
exactly the list of their errors. -/
theorem C178_covers {e : Nat → FSt _ _ _ _} {who : Nat → Option Nat} (x : Exec (manager w) e who) {N id : Nat} {c : Closer W} {r : Res}
    (h1 : Event.inv id (.append c) ∈ (e N).s.hist) (h2 : Event.ret id r ∈ (e N).s.hist) {m id' : Nat} {r' : Res} (n1 : Event.inv id' .close ∉ (e N).s.hist)
    (n2 : Event.inv id' .close ∈ (e m).s.hist) (n3 : Event.ret id' r' ∈ (e m).s.hist) :
    ∃ cs es w1 w2, c ∈ cs ∧ Closes cs w1 es w2 ∧ r' = .err (some (.list es)) ∧ ∀ c' ∈ cs, ∃ id, Event.inv id (.append c') ∈ (e m).s.hist := by
  obtain ⟨S, s, s', legal, m1, sub, es, w2, cl, rfl, -⟩ := x.later readsOnly (C178_linearizable (x.reach m)) h1 h2 n1 n2 n3
  have hs := holds legal
  refine ⟨s.1, es, s.2, w2, ?_, cl, rfl, fun c' hc' => ?_⟩
  · rw [hs]
    exact List.mem_filterMap.2 ⟨_, m1, rfl⟩
  · rw [hs] at hc'
    obtain ⟨⟨id, d, r⟩, hy, hd⟩ := List.mem_filterMap.1 hc'
    cases d with
    | append d => cases hd; exact ⟨id, sub _ hy⟩
    | close => cases hd

/-- **C178, no failure is lost.** In a fair execution every `Close` that starts after the `Append` of a closer that fails returns, and its error can be found with `AsErrs`
in what is returned. -/
theorem C178_reported {e : Nat → FSt _ _ _ _} {who : Nat → Option Nat} (x : Exec (manager w) e who) (fr : FairRun (manager w) e who) {N id : Nat} {c : Closer W} {r : Res}
    {err : Err} (hf : ∀ w, (c w).1 = some err) (h1 : Event.inv id (.append c) ∈ (e N).s.hist) (h2 : Event.ret id r ∈ (e N).s.hist) {m id' : Nat}
    (n1 : Event.inv id' .close ∉ (e N).s.hist) (n2 : Event.inv id' .close ∈ (e m).s.hist) :
    ∃ k r' es, Event.ret id' (.err r') ∈ (e k).s.hist ∧ asErrs r' = some es ∧ err ∈ es := by
  obtain ⟨k, r', hk, n3⟩ := C178_all_return x fr m id' _ n2
  obtain ⟨cs, es, w1, w2, hc, cl, rfl, -⟩ := C178_covers x h1 h2 n1 (x.up hk n2) n3
  exact ⟨k, _, es, n3, rfl, cl.reports hc hf⟩

/-! ## A program: a closer is appended while another goroutine closes -/

/-- A closer that fails when it is called again. -/
def once : Closer Nat := fun n => (if n = 0 then none else some (.plain n), n + 1)

/-- A closer that fails. -/
def bad : Closer Nat := fun n => (some (.plain 7), n)

/-- What happens: `bad` comes too late for the first `Close`. -/
def exHist : List (Event (Call Nat) Res) := [.inv 0 (.append once), .ret 0 .unit, .inv 1 .close, .inv 2 (.append bad), .ret 1 (.err (some (.list []))), .ret 2 .unit, .inv 3 .close,
  .ret 3 (.err (some (.list [.plain 1, .plain 7])))]

theorem ex_reach : ∃ s : St (Mgr Nat × Nat) (Acc Nat) (Call Nat) Res, Reach (manager 0) s ∧ s.hist = exHist ∧ ∀ t, s.pc t = .idle := by
  have h := RW.Reach.init.step (RW.Step.invoke (g := manager 0) (s := RW.start _) (t := 0) (c := .append once) rfl)
  have h := h.step (.lock (t := 0) (id := 0) (c := .append once) rfl rfl rfl rfl)
  have h := h.step (.access (t := 0) (id := 0) (c := .append once) (acc := .start) rfl (by exact .append))
  have h := h.step (.unlock (t := 0) (id := 0) (c := .append once) rfl rfl)
  have h := h.step (.ret (t := 0) (id := 0) (c := .append once) rfl)
  have h := h.step (.invoke (t := 0) (c := .close) rfl)
  have h := h.step (.lock (t := 0) (id := 1) (c := .close) rfl rfl rfl rfl)
  have h := h.step (.invoke (t := 1) (c := .append bad) rfl)
  have h := h.step (.iter (t := 0) (id := 1) (c := .close) (acc := .start) (acc' := .loop [once] [] 0) rfl (by exact .enter))
  have h := h.step (.iter (t := 0) (id := 1) (c := .close) (acc := .loop [once] [] 0) (acc' := .loop [] [] 1) rfl (by exact .fine rfl))
  have h := h.step (.access (t := 0) (id := 1) (c := .close) (acc := .loop [] [] 1) rfl (by exact .close))
  have h := h.step (.unlock (t := 0) (id := 1) (c := .close) rfl rfl)
  have h := h.step (.lock (t := 1) (id := 2) (c := .append bad) rfl rfl rfl rfl)
  have h := h.step (.ret (t := 0) (id := 1) (c := .close) rfl)
  have h := h.step (.access (t := 1) (id := 2) (c := .append bad) (acc := .start) rfl (by exact .append))
  have h := h.step (.unlock (t := 1) (id := 2) (c := .append bad) rfl rfl)
  have h := h.step (.ret (t := 1) (id := 2) (c := .append bad) rfl)
  have h := h.step (.invoke (t := 0) (c := .close) rfl)
  have h := h.step (.lock (t := 0) (id := 3) (c := .close) rfl rfl rfl rfl)
  have h := h.step (.iter (t := 0) (id := 3) (c := .close) (acc := .start) (acc' := .loop [once, bad] [] 1) rfl (by exact .enter))
  have h := h.step (.iter (t := 0) (id := 3) (c := .close) (acc := .loop [once, bad] [] 1) (acc' := .loop [bad] [.plain 1] 2) rfl (by exact .failed rfl))
  have h := h.step (.iter (t := 0) (id := 3) (c := .close) (acc := .loop [bad] [.plain 1] 2) (acc' := .loop [] [.plain 1, .plain 7] 2) rfl (by exact .failed rfl))
  have h := h.step (.access (t := 0) (id := 3) (c := .close) (acc := .loop [] [.plain 1, .plain 7] 2) rfl (by exact .close))
  have h := h.step (.unlock (t := 0) (id := 3) (c := .close) rfl rfl)
  have h := h.step (.ret (t := 0) (id := 3) (c := .close) rfl)
  refine ⟨_, h, rfl, fun t => ?_⟩
  rcases t with _ | _ | t <;> rfl

/-- All hypotheses hold of it, in a fair execution. -/
example : (∀ w, (bad w).1 = some (.plain 7)) ∧ ∃ e who n N, Exec (manager 0) e who ∧ FairRun (manager 0) e who ∧ Event.inv 2 (.append bad) ∈ (e N).s.hist ∧
    Event.ret 2 .unit ∈ (e N).s.hist ∧ Event.inv 3 .close ∉ (e N).s.hist ∧ Event.inv 3 .close ∈ (e n).s.hist := by
  refine ⟨fun _ => rfl, ?_⟩
  obtain ⟨s, h, hh, hi⟩ := ex_reach
  obtain ⟨e, who, n, p, hn⟩ := h.prefix
  have hn' : (e n).s.hist = exHist := by rw [hn]; exact hh
  obtain ⟨N, -, hN⟩ := p.exec.moment (a := exHist.take 6) (b := exHist.drop 6) (hn'.trans (List.take_append_drop ..).symm)
  exact ⟨e, who, n, N, p.exec, p.fair (by rw [hn]; exact hi), by simp [hN, exHist], by simp [hN, exHist], by simp [hN, exHist], by simp [hn', exHist]⟩

/-- The first `Close` had begun before: it does not report the failure, although it returned after the `Append` had begun. -/
example : Event.ret 1 (.err (some (.list []))) ∈ exHist := by simp [exHist]

end Verif.CloseServe
