import Verif.ConvServe.Lemmas
import Verif.MapFair.Lemmas
/-!
# C177: a converter registry that is used and changed at the same time
-/
namespace Verif.ConvServe
open Verif.Go Verif.Conc Verif.Conc.RW Verif.ConvReg

variable {U : Univ} {work : Entry U → Value U → Nat} {h0 : List (Op U)}

/-- **C177.** Whatever the goroutines register, take away and convert, at the same time, the registry behaves like one history of registrations: every call takes place
at one moment, and a conversion is done by the converter that was registered last at that moment. -/
theorem C177_linearizable (hc : ∀ o ∈ h0, U.iface o.src = false ∧ U.iface o.dst = false) {s : St (Reg U) Nat (Call U) (Res U)} (h : Reach (registry work h0) s) :
    Linearizable (regObj h0) s.hist :=
  RW.sim Agree ⟨rfl, hc⟩ (fun m m' c r t ag st => sim_step m m' c r t ag st) (RW.linearizable readsOnly h)

/-- **C177, no races.** While a registration is made no converter is at work. -/
theorem C177_no_race {s : St (Reg U) Nat (Call U) (Res U)} (h : Reach (registry work h0) s) {t t' : Nat} {c c' : Call U} (ht : Accessing s t c)
    (ht' : Accessing s t' c') (hw : (∃ T R f, c = .register T R f) ∨ ∃ T R, c = .unregister T R) : t' = t := by
  refine RW.no_race readsOnly h ht ht' ?_
  rcases hw with ⟨T, R, f, rfl⟩ | ⟨T, R, rfl⟩ <;> rfl

/-- **C177, all calls return,** however long each converter works and however many calls there are: also those whose converter panics. -/
theorem C177_all_return {e : Nat → FSt _ _ _ _} {who : Nat → Option Nat} (x : Exec (registry work h0) e who) (fr : FairRun (registry work h0) e who) :
    MapFair.AllReturn fun n => (e n).s.hist :=
  fun _ _ _ h => all_calls_return readsOnly live shrinks x fr h

/-- **C177, a registration that has returned** serves every conversion that starts later, as long as nobody takes it away: it is done by one of the converters that were
registered for the pair, never answered with `false`. -/
theorem C177_served (hc : ∀ o ∈ h0, U.iface o.src = false ∧ U.iface o.dst = false) {e : Nat → FSt _ _ _ _} {who : Nat → Option Nat} (x : Exec (registry work h0) e who)
    {T R : CTy U} {P : (Value U → Value U) → Prop} (hs : ∀ m, Served T R P (e m).s.hist) {N id : Nat} {f : Option (Value U → Value U)} {r : Res U}
    (h1 : Event.inv id (.register T R f) ∈ (e N).s.hist) (h2 : Event.ret id r ∈ (e N).s.hist) {m id' : Nat} {c : Call U} {r' : Res U}
    (n1 : Event.inv id' c ∉ (e N).s.hist) (n2 : Event.inv id' c ∈ (e m).s.hist) (n3 : Event.ret id' r' ∈ (e m).s.hist) :
    (∀ v, U.dyn v = T.1 → c = .into v R → ∃ g, P g ∧ r' = .conv (.ret (g (some v), true))) ∧
    (∀ v or, U.dyn v = T.1 → c = .intoOr v R or → ∃ g, P g ∧ r' = .val (.ret (g (some v)))) ∧ (c = .found T R → r' = .bool true) := by
  obtain ⟨S, h, h', legal, m1, sub, st⟩ := x.later readsOnly (C177_linearizable hc (x.reach m)) h1 h2 n1 n2 n3
  obtain ⟨g, hg, hP⟩ := there (P := P) legal (fun y hy h => (hs m).unregister y.1 (h ▸ sub y hy)) (fun y hy f h => (hs m).register y.1 f (h ▸ sub y hy))
    ⟨_, m1, f, rfl⟩
  have conc := concrete hc legal
  have conv : ∀ v, U.dyn v = T.1 → ∀ y, Converts h v R y → y = .ret (g (some v), true) := by
    intro v hv y hy
    rw [← hv] at hg
    rcases hy with ⟨g', hg', rfl⟩ | ⟨hg', -⟩ | ⟨hg', -⟩
    · cases latest_unique (T := ⟨_, U.dyn_concrete v⟩) conc hg hg'; rfl
    · cases latest_unique (T := ⟨_, U.dyn_concrete v⟩) conc hg hg'
    · have a := look_latest conc hg (T := U.dyn v) (R := R.1)
      rw [look_noLatest (U.dyn_concrete v) R.2 conc hg'] at a
      cases a
  refine ⟨fun v hv hcc => ?_, fun v or hv hcc => ?_, fun hcc => ?_⟩ <;> subst hcc
  · obtain ⟨⟨y, hy, rfl⟩, -⟩ := st
    exact ⟨g, hP, by rw [conv v hv y hy]⟩
  · obtain ⟨⟨y, hy, rfl⟩, -⟩ := st
    exact ⟨g, hP, by rw [conv v hv y hy]⟩
  · obtain ⟨⟨b, rfl, hb⟩, -⟩ := st
    rw [hb.2 ⟨_, hg⟩]

/-! ## A program: one goroutine registers, another converts -/

/-- The types `false` and `true` of `exU`. -/
def exT (b : Bool) : CTy exU := ⟨(false, b), rfl⟩

/-- From a `false` to the `true` with the next number. -/
def succ : Value exU → Value exU
  | some v => some (true, v.2 + 1)
  | none => none

/-- What happens. -/
def exHist : List (Event (Call exU) (Res exU)) := [.inv 0 (.register (exT false) (exT true) (some succ)), .inv 1 (.into (false, 4) (exT true)), .ret 0 .unit,
  .ret 1 (.conv (.ret (some (true, 5), true))), .inv 2 (.intoOr (false, 8) (exT true) none), .ret 2 (.val (.ret (some (true, 9))))]

theorem ex_reach : ∃ s : St (Reg exU) Nat (Call exU) (Res exU), Reach (registry (fun _ _ => 1) []) s ∧ s.hist = exHist ∧ ∀ t, s.pc t = .idle := by
  have h := RW.Reach.init.step (RW.Step.invoke (g := registry (U := exU) (fun _ _ => 1) []) (s := RW.start _) (t := 0) (c := .register (exT false) (exT true) (some succ)) rfl)
  have h := h.step (.invoke (t := 1) (c := .into (false, 4) (exT true)) rfl)
  have h := h.step (.lock (t := 0) (id := 0) (c := .register (exT false) (exT true) (some succ)) rfl rfl rfl rfl)
  have h := h.step (.access (t := 0) (id := 0) (c := .register (exT false) (exT true) (some succ)) (acc := 0) rfl (by exact ⟨rfl, rfl, rfl⟩))
  have h := h.step (.unlock (t := 0) (id := 0) (c := .register (exT false) (exT true) (some succ)) rfl rfl)
  have h := h.step (.rlock (t := 1) (id := 1) (c := .into (false, 4) (exT true)) rfl rfl rfl)
  have h := h.step (.iter (t := 1) (id := 1) (c := .into (false, 4) (exT true)) (acc := 0) (acc' := 1) rfl (by exact ⟨Nat.one_pos, rfl⟩))
  have h := h.step (.ret (t := 0) (id := 0) (c := .register (exT false) (exT true) (some succ)) rfl)
  have h := h.step (.access (t := 1) (id := 1) (c := .into (false, 4) (exT true)) (acc := 1) rfl (by exact ⟨rfl, rfl, rfl⟩))
  have h := h.step (.runlock (t := 1) (id := 1) (c := .into (false, 4) (exT true)) rfl rfl)
  have h := h.step (.ret (t := 1) (id := 1) (c := .into (false, 4) (exT true)) rfl)
  have h := h.step (.invoke (t := 0) (c := .intoOr (false, 8) (exT true) none) rfl)
  have h := h.step (.rlock (t := 0) (id := 2) (c := .intoOr (false, 8) (exT true) none) rfl rfl rfl)
  have h := h.step (.iter (t := 0) (id := 2) (c := .intoOr (false, 8) (exT true) none) (acc := 0) (acc' := 1) rfl (by exact ⟨Nat.one_pos, rfl⟩))
  have h := h.step (.access (t := 0) (id := 2) (c := .intoOr (false, 8) (exT true) none) (acc := 1) rfl (by exact ⟨rfl, rfl, rfl⟩))
  have h := h.step (.runlock (t := 0) (id := 2) (c := .intoOr (false, 8) (exT true) none) rfl rfl)
  have h := h.step (.ret (t := 0) (id := 2) (c := .intoOr (false, 8) (exT true) none) rfl)
  refine ⟨_, h, rfl, fun t => ?_⟩
  rcases t with _ | _ | t <;> rfl

/-- All hypotheses hold of it, in a fair execution: the `IntoOr` starts after the `Register` has returned. -/
example : ∃ e who n N, Exec (registry (U := exU) (fun _ _ => 1) []) e who ∧ FairRun (registry (fun _ _ => 1) []) e who ∧
    (∀ m, Served (exT false) (exT true) (· = succ) (e m).s.hist) ∧ Event.inv 0 (.register (exT false) (exT true) (some succ)) ∈ (e N).s.hist ∧
    Event.ret 0 .unit ∈ (e N).s.hist ∧ Event.inv 2 (.intoOr (false, 8) (exT true) none) ∉ (e N).s.hist ∧
    Event.inv 2 (.intoOr (false, 8) (exT true) none) ∈ (e n).s.hist ∧ Event.ret 2 (.val (.ret (some (true, 9)))) ∈ (e n).s.hist := by
  obtain ⟨s, h, hh, hi⟩ := ex_reach
  obtain ⟨e, who, n, p, hn⟩ := h.prefix
  have hn' : (e n).s.hist = exHist := by rw [hn]; exact hh
  obtain ⟨N, -, hN⟩ := p.exec.moment (a := exHist.take 3) (b := exHist.drop 3) (hn'.trans (List.take_append_drop ..).symm)
  have all : ∀ m ev, ev ∈ (e m).s.hist → ev ∈ exHist := fun m ev h => by
    rcases Nat.le_total m n with hm | hm
    · rw [← hn']; exact p.exec.up hm h
    · rw [p.stays hm, hn'] at h; exact h
  refine ⟨e, who, n, N, p.exec, p.fair (by rw [hn]; exact hi), fun m => ⟨fun id h => ?_, fun id f h => ?_⟩, ?_, ?_, ?_, ?_, ?_⟩
  · have := all m _ h
    simp [exHist] at this
  · have := all m _ h
    simp [exHist] at this
    exact ⟨succ, this.2, rfl⟩
  · simp [hN, exHist]
  · simp [hN, exHist]
  · simp [hN, exHist]
  · simp [hn', exHist]
  · simp [hn', exHist]

/-- Two converters at work at the same time. -/
example : ∃ s : St (Reg exU) Nat (Call exU) (Res exU), Reach (registry (fun _ _ => 3) [.reg (false, false) (false, true) (some succ)]) s ∧
    Accessing s 0 (.into (false, 4) (exT true)) ∧ Accessing s 1 (.into (false, 5) (exT true)) := by
  have h := RW.Reach.init.step (RW.Step.invoke (g := registry (U := exU) (fun _ _ => 3) [.reg (false, false) (false, true) (some succ)]) (s := RW.start _) (t := 0)
    (c := .into (false, 4) (exT true)) rfl)
  have h := h.step (.invoke (t := 1) (c := .into (false, 5) (exT true)) rfl)
  have h := h.step (.rlock (t := 0) (id := 0) (c := .into (false, 4) (exT true)) rfl rfl rfl)
  have h := h.step (.iter (t := 0) (id := 0) (c := .into (false, 4) (exT true)) (acc := 0) (acc' := 1) rfl (by exact ⟨Nat.zero_lt_succ _, rfl⟩))
  have h := h.step (.rlock (t := 1) (id := 1) (c := .into (false, 5) (exT true)) rfl rfl rfl)
  exact ⟨_, h, ⟨_, _, rfl⟩, ⟨_, _, rfl⟩⟩

end Verif.ConvServe
