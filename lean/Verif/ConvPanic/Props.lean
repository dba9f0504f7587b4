import Verif.ConvPanic.Lemmas
/-!
# C143: a converter that panics does not block the registry

The theorems quantify over all programs of the goroutines (any number), all converters (they may panic, end the
goroutine, recover and use the registry), all contents of the registry at the start, and all schedules.
-/
namespace Verif.ConvPanic

open ConvConc (Op W Ev latest)

variable {K : Type} [DecidableEq K]

/-- No goroutine accesses the map while another one changes it. -/
theorem C143_exclusion {body : Nat → Prog K} {m : K → Option Nat} {prog} {s : St K}
    (h : Run body m prog s) {t u : Nat} (htu : t ≠ u) (ht : Writing (s.thr t)) :
    ¬ Writing (s.thr u) ∧ ¬ Reading (s.thr u) := by
  have hi := inv_run h
  obtain ⟨o, rest, ht⟩ := ht
  have hw := (hi.held t).2 (by rw [ht]; rfl)
  constructor
  · rintro ⟨o', rest', hu⟩
    have := (hi.held u).2 (by rw [hu]; rfl)
    rw [hw] at this
    injection this with h1
    exact htu h1
  · rintro ⟨k, b, rest', hu⟩
    have h0 := hi.excl t hw u
    have hr := hi.rd u
    rw [hi.cnt u, hu] at h0
    rw [hu] at hr
    cases rest' with
    | nil => exact hr
    | cons a l => cases a <;> simp_all [rdOK]

/-- Every lookup, by `Exists` or by `Into`, answers with the newest registration at that moment. -/
theorem C143_lookups {body : Nat → Prog K} {m : K → Option Nat} {prog} {s : St K}
    (h : Run body m prog s) {l₁ l₂ : List (Ev K)} {t : Nat} {k : K} {b : Bool} {f : Option Nat}
    (hl : s.log = l₁ ++ .read t k b f :: l₂) : f = latest m k l₁ := by
  induction h generalizing l₂ with
  | start => simp [start] at hl
  | @step s s' u hr hs ih =>
    have hi := inv_run hr
    have same : s'.log = s.log → f = latest m k l₁ := fun e => ih (e ▸ hl)
    cases hs with
    | write o rest h =>
      simp only [St.to] at hl
      rcases List.eq_nil_or_concat l₂ with rfl | ⟨l₂', x, rfl⟩
      · have := congrArg List.getLast? hl
        simp at this
      · rw [List.concat_eq_append, ← List.cons_append, ← List.append_assoc] at hl
        exact ih (List.append_inj_left' hl rfl)
    | read k' b' rest h =>
      simp only [St.to] at hl
      rcases List.eq_nil_or_concat l₂ with rfl | ⟨l₂', x, rfl⟩
      · have h1 := List.append_inj' hl rfl
        obtain ⟨h1, h2⟩ := h1
        simp at h2
        obtain ⟨-, rfl, -, rfl⟩ := h2
        rw [← h1]; exact hi.map _
      · rw [List.concat_eq_append, ← List.cons_append, ← List.append_assoc] at hl
        exact ih (List.append_inj_left' hl rfl)
    | _ => exact same rfl

/-- A goroutine that is over has made the changes and lookups of its program, once each and in order, with what
panics, recovering and `Goexit` mean for a program; it ended the process exactly if the program panics. -/
theorem C143_does {body : Nat → Prog K} {m : K → Option Nat} {prog : Nat → Option (Prog K)} {s : St K}
    (h : Run body m prog s) {t : Nat} {p : Prog K} (hp : prog t = some p) (ho : Over (s.thr t)) :
    ∃ e, Does body p (didOf t s.log) e ∧ (e = .panics ↔ s.thr t = [.abort false]) := by
  rcases ho with ho | ho
  · obtain ⟨n, e, h1, h2⟩ := left_run h (t := t) (by rw [ho]; exact .nil)
    rw [hp, List.append_nil] at h1
    exact ⟨e, left_does h1, by rw [h2, ho]; simp⟩
  · obtain ⟨n, e, h1, h2⟩ := left_run h (t := t) (by rw [ho]; exact .crash)
    rw [hp, List.append_nil] at h1
    exact ⟨e, left_does h1, by rw [h2, ho]; simp⟩

/-- A goroutine whose stack has left all calls of the registry, however it left them, holds the lock in no way. -/
theorem C143_released {body : Nat → Prog K} {m : K → Option Nat} {prog} {s : St K} (h : Run body m prog s) {t : Nat}
    (ht : Over (s.thr t) ∨ ∃ p, s.thr t = [.prog p]) : s.r t = 0 ∧ s.w ≠ .pend t ∧ s.w ≠ .held t := by
  have hi := inv_run h
  have hc := hi.cnt t
  have hp := hi.pend t
  have hh := hi.held t
  rcases ht with (ht | ht) | ⟨p, ht⟩ <;> rw [ht] at hc hp hh <;> simp [cls] at hc hp hh <;> exact ⟨hc, hp, hh⟩

/-- When all the other goroutines are over, a goroutine outside of converters can change the registry: the call
goes through. -/
theorem C143_usable {body : Nat → Prog K} {m : K → Option Nat} {prog} {s : St K} (h : Run body m prog s) {t : Nat}
    (ho : ∀ u, u ≠ t → Over (s.thr u)) {o : Op K} {p : Prog K} {rest : List (Act K)}
    (ht : s.thr t = .prog (.op o p) :: rest) (hr : Act.runlock ∉ rest) :
    ∃ s', Steps body s s' ∧ s'.thr t = .prog p :: rest ∧ s'.map = o.apply s.map ∧ s'.log = s.log ++ [.wrote t o] := by
  have hi := inv_run h
  have hw : s.w = .free := by
    cases hw : s.w with
    | free => rfl
    | pend u =>
      have hc := (hi.pend u).1 hw
      by_cases hu : u = t
      · subst hu; rw [ht] at hc; simp [cls] at hc
      · exact absurd hw (C143_released h (Or.inl (ho u hu))).2.1
    | held u =>
      have hc := (hi.held u).1 hw
      by_cases hu : u = t
      · subst hu; rw [ht] at hc; simp [cls] at hc
      · exact absurd hw (C143_released h (Or.inl (ho u hu))).2.2
  have h0 : ∀ u, s.r u = 0 := by
    intro u
    by_cases hu : u = t
    · subst hu
      rw [hi.cnt, ht]
      simpa [List.count_eq_zero] using hr
    · exact (C143_released h (Or.inl (ho u hu))).1
  have r1 := (Steps.refl (body := body) (s := s)).step (.announce (t := t) s o p rest ht hw)
  have r2 := r1.step (.acquire (t := t) _ o (.prog p :: rest) (to_thr _ _ _) rfl h0)
  have r3 := r2.step (.write (t := t) _ o (.prog p :: rest) (to_thr _ _ _))
  have r4 := r3.step (.unlock (t := t) _ (.prog p :: rest) (to_thr _ _ _))
  exact ⟨_, r4, to_thr _ _ _, rfl, rfl⟩

/-- If the converters leave the registry alone (they may panic, recover and end their goroutine): every schedule of
`N` goroutines comes to an end, and only when all of them are over. -/
theorem C143_ends {body : Nat → Prog K} (hb : ∀ c, (body c).alone) {m : K → Option Nat} {prog : Nat → Option (Prog K)} :
    (∀ {s : St K}, Run body m prog s → (∃ t, ¬ Over (s.thr t)) → ∃ t s', Step body t s s') ∧
    (∀ N, (∀ t, N ≤ t → prog t = none) →
      ¬ ∃ τ : Nat → St K, τ 0 = start m prog ∧ ∀ n, ∃ t, Step body t (τ n) (τ (n + 1))) := by
  refine ⟨fun h ⟨t, ht⟩ => alone_step (inv_run h) (shape_run hb h) ht, ?_⟩
  rintro N hN ⟨τ, h0, hs⟩
  refine no_endless (N := N) hb _ _ τ (fun t ht => ?_) hs (Nat.le_refl _) (Nat.le_refl _)
  rw [h0]; simp [start, stack, hN t ht]

/-- If nothing changes the registry any more, converters may use it and panic in it: every goroutine that is not
over can go on at any time. -/
theorem C143_nested {body : Nat → Prog K} {m : K → Option Nat} {prog : Nat → Option (Prog K)} {s : St K}
    (hb : ∀ c, (body c).readOnly) (hp : ∀ t p, prog t = some p → p.readOnly)
    (h : Run body m prog s) {t : Nat} (ht : ¬ Over (s.thr t)) : ∃ s', Step body t s s' :=
  free_step (inv_run h) (ro_run hb hp h).1 ht

section Examples

/-- Converter 0 panics. Goroutine 0 recovers from it and then registers another one; goroutine 1 converts. -/
abbrev exBody : Nat → Prog Nat := fun c => if c = 0 then .panic else .done
abbrev exProg : Nat → Option (Prog Nat)
  | 0 => some (.guard (.look 5 true .done) (.op (.reg 5 1) .done))
  | 1 => some (.look 5 true .done)
  | _ => none

/-- Goroutine 0 has recovered and registered, goroutine 1 is over. -/
theorem exRun : ∃ s : St Nat, Run exBody (fun _ => some 0) exProg s ∧ s.thr 0 = [.prog .done] ∧ s.thr 1 = [] ∧
    s.log = [.read 0 5 true (some 0), .wrote 0 (.reg 5 1), .read 1 5 true (some 1)] := by
  have r0 := Run.start (body := exBody) (m := fun _ => some 0) (prog := exProg)
  have r1 := r0.step (.guard (t := 0) _ _ _ [] rfl)
  have r2 := r1.step (.rlock (t := 0) _ 5 true .done [.recovers, .prog (.op (.reg 5 1) .done)] rfl rfl)
  have r3 := r2.step (.read (t := 0) _ 5 true _ rfl)
  have r4 := r3.step (.panic (t := 0) _ [.runlock, .prog .done, .recovers, .prog (.op (.reg 5 1) .done)] rfl)
  have r5 := r4.step (.deferred (t := 0) _ false _ rfl)
  have r6 := r5.step (.skip (t := 0) _ false _ _ rfl)
  have r7 := r6.step (.recover (t := 0) _ _ rfl)
  have r8 := r7.step (.announce (t := 0) _ (.reg 5 1) .done [] rfl rfl)
  have r9 := r8.step (.acquire (t := 0) _ (.reg 5 1) _ rfl rfl (fun u => by
    by_cases h : u = 0 <;> simp [St.to, St.rdrs, start, h]))
  have r10 := r9.step (.write (t := 0) _ (.reg 5 1) _ rfl)
  have r11 := r10.step (.unlock (t := 0) _ _ rfl)
  have r12 := r11.step (.rlock (t := 1) _ 5 true .done [] rfl rfl)
  have r13 := r12.step (.read (t := 1) _ 5 true _ rfl)
  have r14 := r13.step (.ret (t := 1) _ _ rfl)
  have r15 := r14.step (.runlock (t := 1) _ _ rfl)
  have r16 := r15.step (.ret (t := 1) _ _ rfl)
  exact ⟨_, r16, rfl, rfl, rfl⟩

/-- `C143_lookups`, `C143_does` (goroutine 1), `C143_released`: reachable, with a recovered panic before. -/
example : ∃ s : St Nat, Run exBody (fun _ => some 0) exProg s ∧ Over (s.thr 1) ∧
    didOf 1 s.log = [.look 5 true (some 1)] ∧ s.r 0 = 0 := by
  obtain ⟨s, h, h0, h1, hl⟩ := exRun
  refine ⟨s, h, Or.inl h1, by rw [hl]; rfl, (C143_released h (Or.inr ⟨_, h0⟩)).1⟩

/-- What `Does` says about goroutine 0: the lookup, then (the panic is recovered) the change. -/
example : Does exBody (.guard (.look 5 true .done) (.op (.reg 5 1) .done)) ([.look 5 true (some 0)] ++ [.change (.reg 5 1)]) .returns :=
  .guard (.torn .panic (by simp)) (by simp) (.op .done)

/-- `C143_ends`: the converters of the example leave the registry alone; `C143_nested`. -/
example : (∀ c, (exBody c).alone) ∧ (∀ c, (exBody c).readOnly) ∧ ∀ t, 2 ≤ t → exProg t = none := by
  refine ⟨fun c => ?_, fun c => ?_, fun t ht => ?_⟩
  · by_cases h : c = 0 <;> simp [exBody, h, Prog.alone]
  · by_cases h : c = 0 <;> simp [exBody, h, Prog.readOnly]
  · match t, ht with
    | t + 2, _ => rfl

/-- `C143_usable`, `C143_exclusion`: goroutine 1 has left its goroutine from inside a converter (`Goexit`), goroutine 0
is to register; then it is about to change the map. -/
example : ∃ s s' : St Nat, Run (fun _ => .exit) (fun _ => some 0)
      (fun t => if t = 0 then some (.op (.reg 5 1) .done) else if t = 1 then some (.look 5 true .done) else none) s ∧
    (∀ u, u ≠ 0 → Over (s.thr u)) ∧ s.thr 0 = .prog (.op (.reg 5 1) .done) :: [] ∧
    Steps (fun _ => .exit) s s' ∧ Writing (s'.thr 0) := by
  have r0 := Run.start (body := fun _ => Prog.exit) (m := fun _ => some 0)
    (prog := fun t => if t = 0 then some (.op (.reg 5 1) .done) else if t = 1 then some (.look 5 true .done) else none)
  have r1 := r0.step (.rlock (t := 1) _ 5 true .done [] rfl rfl)
  have r2 := r1.step (.read (t := 1) _ 5 true _ rfl)
  have r3 := r2.step (.exit (t := 1) _ [.runlock, .prog .done] rfl)
  have r4 := r3.step (.deferred (t := 1) _ true _ rfl)
  have r5 := r4.step (.skip (t := 1) _ true _ _ rfl)
  have r6 := r5.step (.exited (t := 1) _ rfl)
  refine ⟨_, _, r6, fun u hu => Or.inl ?_, rfl,
    (Steps.refl.step (.announce (t := 0) _ (.reg 5 1) .done [] rfl rfl)).step
      (.acquire (t := 0) _ (.reg 5 1) _ rfl rfl (fun u => ?_)), _, _, rfl⟩
  · by_cases h : u = 1 <;> simp [St.to, St.rdrs, start, stack, h, hu]
  · by_cases h : u = 1 <;> simp [St.to, St.rdrs, start, h]

end Examples

end Verif.ConvPanic
