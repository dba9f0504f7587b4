import Verif.LazyConc.Rank
/-!
# C92: lazies whose constructors get other lazies

The theorems quantify over all families of lazies, all programs of the goroutines, and all schedules.
-/
namespace Verif.LazyConc

variable {V : Type}

/-- No constructor is started twice, whatever the others do. -/
theorem C92_once {P : Prog V} {zero : V} {prog : Nat → List Nat} {s : St V} (h : Reach P zero prog s) (i : Nat) :
    s.starts i ≤ 1 := by
  rcases stage_reach h i with ⟨_, h1, _⟩ | ⟨_, h1, _⟩ | ⟨_, h1, _⟩ <;> omega

/-- If some values satisfy the definitions of all lazies, every `Get` returns those: a goroutine that has finished has
got, for each of its lazies, in order, the value that the definitions ask for. -/
theorem C92_values {P : Prog V} {zero : V} {prog : Nat → List Nat} {val : Nat → V} (hv : Solves P val) {s : St V}
    (h : Reach P zero prog s) {t : Nat} {vs : List V} (hf : Finished s t vs) : vs = (prog t).map val := by
  have := (vals_reach hv h).stk t
  rw [hf] at this
  obtain ⟨-, pre, h1, h2⟩ := this
  rw [h1, h2]
  simp

/-- Ranked lazies have values, and only one family of values. -/
theorem C92_solution (P : Prog V) {rank : Nat → Nat} (hr : Ranked P rank) :
    ∃ val, Solves P val ∧ ∀ val', Solves P val' → val' = val :=
  ⟨sol P hr, sol_solves P hr, fun _ h => sol_unique hr h (sol_solves P hr)⟩

/-- The full statement: as long as some goroutine has lazies to get, one of them can go on. False, see below. -/
def C92_full (V : Type) : Prop :=
  ∀ (P : Prog V) (zero : V) (prog : Nat → List Nat) (s : St V), Reach P zero prog s →
    (¬ ∀ t, ∃ vs, Finished s t vs) → CanStep P s

/-- If the lazies can be ranked (no lazy needs itself, directly or through others): any number of goroutines never block
each other for ever. -/
theorem C92_partial {P : Prog V} {rank : Nat → Nat} (hr : Ranked P rank) {zero : V} {prog : Nat → List Nat} {s : St V}
    (h : Reach P zero prog s) (hd : ¬ ∀ t, ∃ vs, Finished s t vs) : CanStep P s := by
  obtain ⟨t, ht⟩ := Classical.not_forall.1 hd
  have hv := vals_reach (sol_solves P hr) h
  have hst := hv.stk t
  cases hh : s.thr t with
  | nil => rw [hh] at hst; exact hst.elim
  | cons f l =>
    cases hj : lz f with
    | some j => exact progress hr (locks_reach h) hv _ t j f l rfl hj hh
    | none =>
      rw [hh] at hst
      cases f with
      | main todo got =>
        obtain ⟨rfl, _⟩ := hst
        refine ⟨t, can_step hh ?_ (by intro i hi; cases hi)⟩
        intro got' hg
        rw [hg] at hh
        exact ht ⟨got', hh⟩
      | _ => simp [lz] at hj

/-- Under the same condition no schedule of finitely many goroutines goes on for ever. -/
theorem C92_ends_partial {P : Prog V} {rank : Nat → Nat} (hr : Ranked P rank) {zero : V} {prog : Nat → List Nat}
    {N : Nat} (hN : ∀ t, N ≤ t → prog t = []) :
    ¬ ∃ f : Nat → St V, f 0 = start zero prog ∧ ∀ n, ∃ t, Step P t (f n) (f (n + 1)) := by
  rintro ⟨f, h0, hf⟩
  have hreach : ∀ n, Reach P zero prog (f n) := by
    intro n
    induction n with
    | zero => rw [h0]; exact .start
    | succ n ih => obtain ⟨t, ht⟩ := hf n; exact .step ih ht
  have hstep : ∀ n, Relation.CutExpand (· < ·) (bags rank N (f (n + 1))) (bags rank N (f n)) := by
    intro n
    obtain ⟨t, ht⟩ := hf n
    refine bags_step hr (vals_reach (sol_solves P hr) (hreach n)) ht ?_
    apply Classical.byContradiction
    intro hlt
    exact step_busy ht _ (idle_reach hN (hreach n) t (by omega))
  have hwf : WellFounded (Relation.CutExpand ((· < ·) : Nat ×ₗ Nat → Nat ×ₗ Nat → Prop)) :=
    WellFounded.cutExpand wellFounded_lt
  have key : ∀ b n, bags rank N (f n) = b → False := by
    intro b
    induction b using hwf.induction with
    | _ b ih =>
      intro n hn
      exact ih _ (hn ▸ hstep n) (n + 1) rfl
  exact key _ 0 rfl

/-- A constructor that gets its own lazy, directly or through others, never returns: once it is at the mutex it stays
there in every execution, and so does every other goroutine that waits for this lazy. -/
theorem C92_reentrant {P : Prog V} {zero : V} {prog : Nat → List Nat} {s s' : St V} (h : Reach P zero prog s)
    {t i : Nat} {todo : List Nat} {got : List V} {l : List (Fr V)} (ht : s.thr t = .lock i :: l)
    (hb : Fr.build i todo got ∈ l) (hs : Steps P s s') :
    s'.thr t = s.thr t ∧ ∀ u l', s.thr u = .lock i :: l' → s'.thr u = s.thr u := by
  have key : Locks s' ∧ s'.mu i = some t ∧ ∀ u l', s.thr u = .lock i :: l' → s'.thr u = s.thr u := by
    induction hs with
    | refl =>
      have hl := locks_reach h
      exact ⟨hl, held_of_mem hl (f := .build i todo got) (by rw [ht]; exact List.mem_cons_of_mem _ hb)
        (by simp [holds]), fun _ _ _ => rfl⟩
    | @step s1 s2 v _ hst ih =>
      obtain ⟨i0, i1, i2⟩ := ih
      have hne : ∀ u l', s.thr u = .lock i :: l' → u ≠ v := by
        rintro u l' hu rfl
        have h1 := i2 u l' hu
        rw [hu] at h1
        cases hst with
        | lock k m h2 h3 =>
          rw [h1] at h2; injection h2 with h2 _; injection h2 with h2; subst h2
          rw [i1] at h3; cases h3
        | _ => simp_all
      have h4 : ∀ u l', s.thr u = .lock i :: l' → s2.thr u = s.thr u := by
        intro u l' hu
        rw [step_other hst (hne u l' hu)]
        exact i2 u l' hu
      have hl2 := locks_step i0 hst
      exact ⟨hl2, held_of_mem hl2 (f := .build i todo got)
        (by rw [h4 t l ht, ht]; exact List.mem_cons_of_mem _ hb) (by simp [holds]), h4⟩
  exact ⟨key.2.2 t l ht, key.2.2⟩

/-- A constructor that gets its own lazy: one goroutine is enough. -/
theorem C92_refuted : ¬ C92_full Nat := by
  intro hf
  let P : Prog Nat := ⟨fun _ => [0], fun _ _ => 1⟩
  let prog : Nat → List Nat := fun t => if t = 0 then [0] else []
  have r0 := Reach.start (P := P) (zero := 0) (prog := prog)
  have r1 := r0.step (.call (t := 0) _ 0 [] [] [] rfl)
  have r2 := r1.step (.loadUnset (t := 0) _ 0 [.main [] []] rfl rfl)
  have r3 := r2.step (.lock (t := 0) _ 0 [.main [] []] rfl rfl)
  have r4 := r3.step (.checkUnset (t := 0) _ 0 [.main [] []] rfl rfl)
  have r5 := r4.step (.need (t := 0) _ 0 0 [] [] [.main [] []] rfl)
  have r6 := r5.step (.loadUnset (t := 0) _ 0 [.build 0 [] [], .main [] []] rfl rfl)
  obtain ⟨t, s', hs⟩ := hf _ _ _ _ r6 (fun hd => by
    obtain ⟨vs, h⟩ := hd 0
    simp [Finished, St.to] at h)
  by_cases ht : t = 0
  · subst ht
    cases hs with
    | lock i l h h2 => cases h; cases h2
    | loadSet i l h _ => cases h
    | loadUnset i l h _ => cases h
    | checkSet i l h _ => cases h
    | checkUnset i l h _ => cases h
    | _ => rename_i h; cases h
  · exact step_busy hs [] (by simp [St.to, St.setMu, start, prog, ht])

/-- Two lazies that need each other, got by two goroutines. -/
theorem C92_refuted_crossed : ¬ C92_full Nat := by
  intro hf
  let P : Prog Nat := ⟨fun i => if i = 0 then [1] else [0], fun _ _ => 1⟩
  let prog : Nat → List Nat := fun t => if t = 0 then [0] else if t = 1 then [1] else []
  have r0 := Reach.start (P := P) (zero := 0) (prog := prog)
  have r1 := r0.step (.call (t := 0) _ 0 [] [] [] rfl)
  have r2 := r1.step (.loadUnset (t := 0) _ 0 [.main [] []] rfl rfl)
  have r3 := r2.step (.lock (t := 0) _ 0 [.main [] []] rfl rfl)
  have r4 := r3.step (.checkUnset (t := 0) _ 0 [.main [] []] rfl rfl)
  have r5 := r4.step (.need (t := 0) _ 0 1 [] [] [.main [] []] rfl)
  have r6 := r5.step (.loadUnset (t := 0) _ 1 [.build 0 [] [], .main [] []] rfl rfl)
  have q1 := r6.step (.call (t := 1) _ 1 [] [] [] rfl)
  have q2 := q1.step (.loadUnset (t := 1) _ 1 [.main [] []] rfl rfl)
  have q3 := q2.step (.lock (t := 1) _ 1 [.main [] []] rfl rfl)
  have q4 := q3.step (.checkUnset (t := 1) _ 1 [.main [] []] rfl rfl)
  have q5 := q4.step (.need (t := 1) _ 1 0 [] [] [.main [] []] rfl)
  have q6 := q5.step (.loadUnset (t := 1) _ 0 [.build 1 [] [], .main [] []] rfl rfl)
  obtain ⟨t, s', hs⟩ := hf _ _ _ _ q6 (fun hd => by
    obtain ⟨vs, h⟩ := hd 1
    simp [Finished, St.to] at h)
  by_cases ht : t = 0
  · subst ht
    cases hs with
    | lock i l h h2 => cases h; cases h2
    | loadSet i l h _ => cases h
    | loadUnset i l h _ => cases h
    | checkSet i l h _ => cases h
    | checkUnset i l h _ => cases h
    | _ => rename_i h; cases h
  by_cases ht1 : t = 1
  · subst ht1
    cases hs with
    | lock i l h h2 => cases h; cases h2
    | loadSet i l h _ => cases h
    | loadUnset i l h _ => cases h
    | checkSet i l h _ => cases h
    | checkUnset i l h _ => cases h
    | _ => rename_i h; cases h
  · exact step_busy hs [] (by simp [St.to, St.setMu, start, prog, ht, ht1])

section Examples

/-- Lazy `i > 0` needs lazy `i - 1` twice and adds the two values to `i`. -/
abbrev exP : Prog Nat := ⟨fun i => if i = 0 then [] else [i - 1, i - 1], fun i vs => i + vs.sum⟩

/-- `C92_solution`, `C92_partial`, `C92_ends_partial`: the lazies' own numbers are ranks. -/
example : Ranked exP id := by
  intro i j hj
  by_cases hi : i = 0 <;> simp [exP, hi] at hj
  subst hj
  show i - 1 < i
  omega

/-- `C92_values`: values that satisfy the definitions. -/
example : Solves exP (fun i => 2 ^ (i + 1) - 2 - i) := by
  intro i
  cases i with
  | zero => rfl
  | succ n =>
    have h1 : n + 2 ≤ 2 ^ (n + 1) := by
      induction n with
      | zero => decide
      | succ n ih => rw [Nat.pow_succ]; omega
    have h2 : 2 ^ (n + 1 + 1) = 2 * 2 ^ (n + 1) := by rw [Nat.pow_succ, Nat.mul_comm]
    simp [exP]
    omega

/-- `C92_once`, `C92_values`: a finished run. -/
example : ∃ s : St Nat, Reach exP 0 (fun t => if t = 0 then [0] else []) s ∧ Finished s 0 [0] ∧ s.starts 0 = 1 := by
  have r0 := Reach.start (P := exP) (zero := 0) (prog := fun t => if t = 0 then [0] else [])
  have r1 := r0.step (.call (t := 0) _ 0 [] [] [] rfl)
  have r2 := r1.step (.loadUnset (t := 0) _ 0 [.main [] []] rfl rfl)
  have r3 := r2.step (.lock (t := 0) _ 0 [.main [] []] rfl rfl)
  have r4 := r3.step (.checkUnset (t := 0) _ 0 [.main [] []] rfl rfl)
  have r5 := r4.step (.built (t := 0) _ 0 [] [.main [] []] rfl)
  have r6 := r5.step (.write (t := 0) _ 0 0 [.main [] []] rfl)
  have r7 := r6.step (.setDone (t := 0) _ 0 [.main [] []] rfl)
  have r8 := r7.step (.unlock (t := 0) _ 0 [.main [] []] rfl)
  have r9 := r8.step (.read (t := 0) _ 0 [.main [] []] rfl)
  exact ⟨_, r9, rfl, rfl⟩

/-- `C92_reentrant`: a constructor at its own mutex. -/
example : ∃ s : St Nat, Reach ⟨fun _ => [0], fun _ _ => 1⟩ 0 (fun t => if t = 0 then [0] else []) s ∧
    s.thr 0 = .lock 0 :: [.build 0 [] [], .main [] []] := by
  have r0 := Reach.start (P := ⟨fun _ => [0], fun _ _ => 1⟩) (zero := 0) (prog := fun t => if t = 0 then [0] else [])
  have r1 := r0.step (.call (t := 0) _ 0 [] [] [] rfl)
  have r2 := r1.step (.loadUnset (t := 0) _ 0 [.main [] []] rfl rfl)
  have r3 := r2.step (.lock (t := 0) _ 0 [.main [] []] rfl rfl)
  have r4 := r3.step (.checkUnset (t := 0) _ 0 [.main [] []] rfl rfl)
  have r5 := r4.step (.need (t := 0) _ 0 0 [] [] [.main [] []] rfl)
  have r6 := r5.step (.loadUnset (t := 0) _ 0 [.build 0 [] [], .main [] []] rfl rfl)
  exact ⟨_, r6, rfl⟩

end Examples

end Verif.LazyConc
