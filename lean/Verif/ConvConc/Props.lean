import Verif.ConvConc.Lemmas
/-!
# C90: the registry of converters in concurrent use

The theorems quantify over all programs of the goroutines (any number), all converters, all contents of the
registry at the start, and all schedules.
-/
namespace Verif.ConvConc

variable {K : Type} [DecidableEq K]

/-- No goroutine accesses the map while another one changes it. -/
theorem C90_exclusion {body : Nat → List (Call K)} {m : K → Option Nat} {prog n} {s : St K}
    (h : Run body m prog n s) {t u : Nat} (htu : t ≠ u) (ht : Writing (s.thr t)) :
    ¬ Writing (s.thr u) ∧ ¬ Reading (s.thr u) := by
  have hi := inv_run h
  obtain ⟨o, rest, ht⟩ := ht
  have hw := (hi.held t).2 (by rw [ht]; rfl)
  constructor
  · rintro ⟨o', rest', hu⟩
    have := (hi.held u).2 (by rw [hu]; rfl)
    rw [hw] at this
    injection this with h1
    exact htu h1
  · rintro ⟨k, b, rest', hu⟩
    have h0 := hi.excl t hw u
    have hr := hi.rd u
    rw [hi.cnt u, hu] at h0
    rw [hu] at hr
    cases rest' with
    | nil => exact hr
    | cons a l => cases a <;> simp_all [rdOK]

/-- Every lookup, by `Exists` or by `Into`, answers with the newest registration at that moment. -/
theorem C90_lookups {body : Nat → List (Call K)} {m : K → Option Nat} {prog n} {s : St K}
    (h : Run body m prog n s) {l₁ l₂ : List (Ev K)} {t : Nat} {k : K} {b : Bool} {f : Option Nat}
    (hl : s.log = l₁ ++ .read t k b f :: l₂) : f = latest m k l₁ := by
  induction h generalizing l₂ with
  | start => simp [start] at hl
  | @step n s s' u hr hs ih =>
    have hi := inv_run hr
    have same : s'.log = s.log → f = latest m k l₁ := fun e => ih (e ▸ hl)
    cases hs with
    | announce o rest h h2 => exact same rfl
    | acquire o rest h h2 => exact same rfl
    | write o rest h =>
      simp only [St.to] at hl
      rcases List.eq_nil_or_concat l₂ with rfl | ⟨l₂', x, rfl⟩
      · have := congrArg List.getLast? hl
        simp at this
      · rw [List.concat_eq_append, ← List.cons_append, ← List.append_assoc] at hl
        exact ih (List.append_inj_left' hl rfl)
    | unlock rest h => exact same rfl
    | rlockE k rest h h2 => exact same rfl
    | rlockI k rest h h2 => exact same rfl
    | read k' b' rest h =>
      simp only [St.to] at hl
      rcases List.eq_nil_or_concat l₂ with rfl | ⟨l₂', x, rfl⟩
      · have h1 := List.append_inj' hl rfl
        obtain ⟨h1, h2⟩ := h1
        simp at h2
        obtain ⟨-, rfl, -, rfl⟩ := h2
        rw [← h1]; exact hi.map _
      · rw [List.concat_eq_append, ← List.cons_append, ← List.append_assoc] at hl
        exact ih (List.append_inj_left' hl rfl)
    | runlock rest h => exact same rfl

/-- While a goroutine is inside a lookup (so: while a converter runs), the registry does not change. -/
theorem C90_unchanged {body : Nat → List (Call K)} {m : K → Option Nat} {prog n} {s s' : St K}
    (h : Run body m prog n s) {t u : Nat} (ht : Act.runlock ∈ s.thr t) (hs : Step body u s s') :
    s'.map = s.map := by
  have hi := inv_run h
  cases hs with
  | write o rest h =>
    have h0 := hi.excl u ((hi.held u).2 (by rw [h]; rfl)) t
    rw [hi.cnt t, List.count_eq_zero] at h0
    exact absurd ht h0
  | _ => rfl

/-- The full statement: whatever the converters do, as long as some goroutine has calls to make, one of them can
go on. False, see below. -/
def C90_full (K : Type) [DecidableEq K] : Prop :=
  ∀ (body : Nat → List (Call K)) (m : K → Option Nat) (prog : Nat → List (Call K)) (n : Nat) (s : St K),
    Run body m prog n s → ¬ AllDone s → CanStep body s

/-- If no converter uses the registry: every schedule of any calls of `N` goroutines ends, after the same number
of steps, and then every goroutine has made all its calls. -/
theorem C90_partial {body : Nat → List (Call K)} (hb : ∀ c, body c = []) {m : K → Option Nat}
    {prog : Nat → List (Call K)} {N n : Nat} (hN : ∀ t, N ≤ t → prog t = []) {s : St K}
    (h : Run body m prog n s) :
    (¬ AllDone s → CanStep body s) ∧
    n ≤ ∑ t ∈ Finset.range N, ((prog t).map Call.cost).sum ∧
    (n = ∑ t ∈ Finset.range N, ((prog t).map Call.cost).sum ↔ AllDone s) := by
  have hi := inv_run h
  have hz : (∀ t, N ≤ t → s.thr t = []) ∧
      n + total N s = ∑ t ∈ Finset.range N, ((prog t).map Call.cost).sum := by
    clear hi
    induction h with
    | start =>
      refine ⟨fun t ht => by simp [start, hN t ht], ?_⟩
      simp only [total, start, work_calls, Nat.zero_add]
    | @step n s s' t _ hs ih =>
      obtain ⟨i1, i2⟩ := ih
      have ht : t < N := by
        apply Classical.byContradiction
        intro ht
        have := i1 t (by omega)
        have := (work_step hb hs).1
        simp_all [work]
      refine ⟨fun u hu => ?_, ?_⟩
      · rw [(work_step hb hs).2 u (by omega)]; exact i1 u hu
      · have := total_step hb hs ht
        omega
  obtain ⟨hz1, hz2⟩ := hz
  have hd : total N s = 0 ↔ AllDone s := by
    constructor
    · intro h0 t
      by_cases ht : t < N
      · exact work_zero ((Finset.sum_eq_zero_iff.1 h0) t (Finset.mem_range.2 ht))
      · exact hz1 t (by omega)
    · intro hd
      exact Finset.sum_eq_zero (fun t _ => by rw [hd t]; rfl)
  refine ⟨fun hnd => ?_, by omega, by rw [← hd]; omega⟩
  have hfl := flat_run hb h
  cases hw : s.w with
  | free =>
    obtain ⟨t, ht⟩ := Classical.not_forall.1 hnd
    exact ⟨t, free_step hi hw ht⟩
  | held t =>
    have hc := (hi.held t).1 hw
    cases ht : s.thr t with
    | nil => rw [ht] at hc; cases hc
    | cons a rest =>
      rw [ht] at hc
      cases a with
      | wr o => exact ⟨t, _, .write s o rest ht⟩
      | unlock => exact ⟨t, _, .unlock s rest ht⟩
      | _ => simp [cls] at hc
  | pend t =>
    have hc := (hi.pend t).1 hw
    by_cases h0 : ∀ u, s.r u = 0
    · cases ht : s.thr t with
      | nil => rw [ht] at hc; cases hc
      | cons a rest =>
        rw [ht] at hc
        cases a with
        | acq o => exact ⟨t, _, .acquire s o rest ht hw h0⟩
        | _ => simp [cls] at hc
    · obtain ⟨u, hu⟩ := Classical.not_forall.1 h0
      have hfu := hfl u
      have hcu := hi.cnt u
      have hmem : Act.runlock ∈ s.thr u := by
        rw [← List.count_pos_iff]; omega
      cases ht : s.thr u with
      | nil => rw [ht] at hmem; cases hmem
      | cons a rest =>
        rw [ht] at hmem hfu
        cases a with
        | rd k b => exact ⟨u, _, .read s k b rest ht⟩
        | runlock => exact ⟨u, _, .runlock s rest ht⟩
        | _ =>
          obtain ⟨p, rfl⟩ := hfu
          simp at hmem

/-- If no converter uses the registry: when all goroutines have finished, each one's calls have taken effect, once
each and in the order of its program. -/
theorem C90_calls {body : Nat → List (Call K)} (hb : ∀ c, body c = []) {m : K → Option Nat} {prog n} {s : St K}
    (h : Run body m prog n s) (hd : AllDone s) (t : Nat) : callsOf t s.log = prog t := by
  have key : callsOf t s.log ++ toCome (s.thr t) = prog t := by
    clear hd
    induction h with
    | start => simp [start, callsOf, toCome_calls]
    | step _ hs ih => rw [calls_step hb hs t, ih]
  rw [hd t] at key
  simpa [toCome] using key

/-- If nothing changes the registry any more, converters may use it (`Into` and `Exists`, nested to any depth):
every goroutine with something to do can go on at any time. -/
theorem C90_nested_partial {body : Nat → List (Call K)} {m : K → Option Nat} {prog n} {s : St K}
    (hb : ∀ c, ∀ a ∈ body c, a.readOnly) (hp : ∀ t, ∀ a ∈ prog t, a.readOnly)
    (h : Run body m prog n s) {t : Nat} (ht : s.thr t ≠ []) : ∃ s', Step body t s s' :=
  free_step (inv_run h) (ro_run hb hp h).1 ht

/-- A change of the registry asked for by a converter never happens: in no execution does the call get further
than waiting for the lock. -/
theorem C90_change_in_converter {body : Nat → List (Call K)} {m : K → Option Nat} {prog n} {s s' : St K}
    (h : Run body m prog n s) {t : Nat} {o : Op K} {rest : List (Act K)}
    (ht : s.thr t = .call (.op o) :: rest) (hr : Act.runlock ∈ rest) (hs : Steps body s s') :
    s'.thr t = .call (.op o) :: rest ∨ s'.thr t = .acq o :: rest :=
  change_waits (inv_run h) hr (Or.inl ht) hs

/-- A lookup by a converter while another goroutine waits to change the registry: neither call ever ends, and no
other goroutine can begin a call from then on. -/
theorem C90_lookup_in_converter {body : Nat → List (Call K)} {m : K → Option Nat} {prog n} {s s' : St K}
    (h : Run body m prog n s) {t u : Nat} {c : Call K} {o : Op K} {rest rest' : List (Act K)}
    (ht : s.thr t = .call c :: rest) (hr : Act.runlock ∈ rest) (hu : s.thr u = .acq o :: rest')
    (hs : Steps body s s') :
    s'.thr t = s.thr t ∧ s'.thr u = s.thr u ∧ ∀ v c' l, s.thr v = .call c' :: l → s'.thr v = s.thr v := by
  have hi := inv_run h
  have hw := (hi.pend u).2 (by rw [hu]; rfl)
  have h0 : 0 < s.r t := by
    rw [hi.cnt t, ht]
    simpa [List.count_pos_iff] using hr
  obtain ⟨-, -, -, h4⟩ := blocked_steps hi hw h0 (by rw [ht]; trivial) hs
  exact ⟨h4 t (by rw [ht]; trivial), h4 u (by rw [hu]; trivial), fun v c' l hv => h4 v (by rw [hv]; trivial)⟩

/-- A converter that registers: one goroutine is enough. -/
theorem C90_refuted : ¬ C90_full Nat := by
  intro hf
  let body : Nat → List (Call Nat) := fun _ => [.op (.reg 1 1)]
  let prog : Nat → List (Call Nat) := fun t => if t = 0 then [.into 0] else []
  have r0 := Run.start (body := body) (m := fun _ => some 0) (prog := prog)
  have r1 := r0.step (.rlockI (t := 0) _ 0 [] rfl rfl)
  have r2 := r1.step (.read (t := 0) _ 0 true [.runlock] rfl)
  have r3 := r2.step (.announce (t := 0) _ (.reg 1 1) [.runlock] rfl rfl)
  refine no_step (body := body) (u := 0) (t := 0) rfl Nat.zero_lt_one (fun x => ?_)
    (hf _ _ _ _ _ r3 (fun hd => by have := hd 0; simp [St.to] at this))
  by_cases hx : x = 0
  · subst hx; right; trivial
  · left; simp [St.to, St.rdrs, start, prog, hx]

/-- A converter that converts with another converter, and a goroutine that registers meanwhile. -/
theorem C90_refuted_nested : ¬ C90_full Nat := by
  intro hf
  let body : Nat → List (Call Nat) := fun c => if c = 0 then [.into 1] else []
  let prog : Nat → List (Call Nat) := fun t => if t = 0 then [.into 0] else if t = 1 then [.op (.reg 2 2)] else []
  have r0 := Run.start (body := body) (m := fun k => some k) (prog := prog)
  have r1 := r0.step (.rlockI (t := 0) _ 0 [] rfl rfl)
  have r2 := r1.step (.read (t := 0) _ 0 true [.runlock] rfl)
  have r3 := r2.step (.announce (t := 1) _ (.reg 2 2) [] rfl rfl)
  refine no_step (body := body) (u := 1) (t := 0) rfl Nat.zero_lt_one (fun x => ?_)
    (hf _ _ _ _ _ r3 (fun hd => by have := hd 1; simp [St.to] at this))
  by_cases hx : x = 1
  · subst hx; right; trivial
  by_cases hx0 : x = 0
  · subst hx0; right; trivial
  · left; simp [St.to, St.rdrs, start, prog, hx, hx0]

section Examples

/-- Two goroutines: one registers, the other one converts. -/
abbrev exProg : Nat → List (Call Nat) := fun t => if t = 0 then [.op (.reg 5 7)] else if t = 1 then [.into 5] else []

/-- `C90_exclusion`: a reachable state in which a goroutine is about to change the map. -/
example : ∃ s : St Nat, Run (fun _ => []) (fun _ => none) exProg 2 s ∧ Writing (s.thr 0) := by
  have r0 := Run.start (body := fun _ => ([] : List (Call Nat))) (m := fun _ => none) (prog := exProg)
  have r1 := r0.step (.announce (t := 0) _ (.reg 5 7) [] rfl rfl)
  have r2 := r1.step (.acquire (t := 0) _ (.reg 5 7) [] rfl rfl (fun _ => rfl))
  exact ⟨_, r2, _, _, rfl⟩

/-- `C90_lookups`: the lookup after the registration finds it; `C90_partial`: the run has all its 7 steps; `C90_calls`. -/
example : ∃ s : St Nat, Run (fun _ => []) (fun _ => none) exProg 7 s ∧
    s.log = [.wrote 0 (.reg 5 7)] ++ [.read 1 5 true (some 7)] ∧ latest (fun _ => none) 5 [.wrote 0 (.reg 5 7)] = some 7 ∧
    ∑ t ∈ Finset.range 2, ((exProg t).map Call.cost).sum = 7 := by
  have r0 := Run.start (body := fun _ => ([] : List (Call Nat))) (m := fun _ => none) (prog := exProg)
  have r1 := r0.step (.announce (t := 0) _ (.reg 5 7) [] rfl rfl)
  have r2 := r1.step (.acquire (t := 0) _ (.reg 5 7) [] rfl rfl (fun _ => rfl))
  have r3 := r2.step (.write (t := 0) _ (.reg 5 7) [] rfl)
  have r4 := r3.step (.unlock (t := 0) _ [] rfl)
  have r5 := r4.step (.rlockI (t := 1) _ 5 [] rfl rfl)
  have r6 := r5.step (.read (t := 1) _ 5 true [.runlock] rfl)
  have r7 := r6.step (.runlock (t := 1) _ [] rfl)
  exact ⟨_, r7, rfl, rfl, rfl⟩

/-- `C90_unchanged`, `C90_nested_partial`, `C90_change_in_converter`: a converter is running. -/
example : ∃ s : St Nat, Run (fun _ => [.op (.reg 1 1)]) (fun _ => some 0) exProg 2 s ∧
    s.thr 1 = .call (.op (.reg 1 1)) :: [.runlock] := by
  have r0 := Run.start (body := fun _ => [Call.op (.reg 1 1)]) (m := fun _ => some 0) (prog := exProg)
  have r1 := r0.step (.rlockI (t := 1) _ 5 [] rfl rfl)
  have r2 := r1.step (.read (t := 1) _ 5 true [.runlock] rfl)
  exact ⟨_, r2, rfl⟩

/-- `C90_nested_partial`: a converter in a converter. -/
example : ∃ s : St Nat, Run (fun c => if c = 0 then [.into 1] else []) (fun k => some k) (fun t => if t = 0 then [.into 0] else []) 3 s ∧
    s.thr 0 = [.rd 1 true, .runlock, .runlock] := by
  have r0 := Run.start (body := fun c => if c = 0 then [Call.into 1] else []) (m := fun k => some k)
    (prog := fun t => if t = 0 then [.into 0] else [])
  have r1 := r0.step (.rlockI (t := 0) _ 0 [] rfl rfl)
  have r2 := r1.step (.read (t := 0) _ 0 true [.runlock] rfl)
  have r3 := r2.step (.rlockI (t := 0) _ 1 [.runlock] rfl rfl)
  exact ⟨_, r3, rfl⟩

/-- `C90_lookup_in_converter`: a lookup inside a converter, a writer waits. -/
example : ∃ s : St Nat, Run (fun _ => [.exist 3]) (fun _ => some 0) exProg 3 s ∧
    s.thr 1 = .call (.exist 3) :: [.runlock] ∧ s.thr 0 = .acq (.reg 5 7) :: [] := by
  have r0 := Run.start (body := fun _ => [Call.exist 3]) (m := fun _ => some 0) (prog := exProg)
  have r1 := r0.step (.rlockI (t := 1) _ 5 [] rfl rfl)
  have r2 := r1.step (.read (t := 1) _ 5 true [.runlock] rfl)
  have r3 := r2.step (.announce (t := 0) _ (.reg 5 7) [] rfl rfl)
  exact ⟨_, r3, rfl, rfl⟩

end Examples

end Verif.ConvConc
