import Verif.CloseConc.Rank
/-!
# C91: managers of closers in concurrent use

The theorems quantify over all programs of the goroutines, all closers and what they do, and all schedules.
-/
namespace Verif.CloseConc

/-- The events of every manager form a sequential history: each `Close` closes exactly the closers appended before
it, each once and in the order of `Append`; no `Append` and no other `Close` of the manager takes effect meanwhile. -/
theorem C91_sequential {body prog : Nat → List Call} {s : St} (h : Reach body prog s) (m : Nat) :
    ∃ going, replay m ⟨[], none⟩ s.log = some ⟨s.list m, going⟩ := ⟨_, seq_inv h m⟩

/-- When all goroutines have finished, every `Close` has ended and every lock is free. -/
theorem C91_released {body prog : Nat → List Call} {s : St} (h : Reach body prog s) (hd : AllDone s) (m : Nat) :
    s.mu m = none ∧ replay m ⟨[], none⟩ s.log = some ⟨s.list m, none⟩ := by
  have hmu : s.mu m = none := by
    cases hmu : s.mu m with
    | none => rfl
    | some t =>
      have := locks_reach h t m
      rw [hd t, hmu] at this
      simp at this
  refine ⟨hmu, ?_⟩
  rw [seq_inv h m, goingOn, hmu]
  rfl

/-- The events of every goroutine follow its program and the calls of the closers it runs: nothing is left out, done
twice, or done in another order. -/
theorem C91_program {body prog : Nat → List Call} {s : St} (h : Reach body prog s) (t : Nat) :
    (∃ left, follow body t ((prog t).map .call) s.log = some left) ∧
    (AllDone s → follow body t ((prog t).map .call) s.log = some []) :=
  ⟨⟨_, follow_inv h t⟩, fun hd => by rw [follow_inv h t, hd t]; rfl⟩

/-- The full statement: whatever the closers do, as long as some goroutine has calls to make, one of them can go
on. False, see below. -/
def C91_full : Prop :=
  ∀ (body prog : Nat → List Call) (s : St), Reach body prog s → ¬ AllDone s → CanStep body s

/-- If the managers can be ranked such that the closers appended to a manager use only managers of lower ranks (so
managers of managers form no cycle): any number of goroutines never block each other for ever. -/
theorem C91_partial {body prog : Nat → List Call} {rank : Nat → Nat}
    (hb : ∀ c, ∀ a ∈ body c, a.ranked body rank) (hp : ∀ t, ∀ a ∈ prog t, a.ranked body rank) {s : St}
    (h : Reach body prog s) (hd : ¬ AllDone s) : CanStep body s := by
  obtain ⟨t, ht⟩ := Classical.not_forall.1 hd
  cases hh : s.thr t with
  | nil => exact absurd hh ht
  | cons a rest => exact progress (locks_reach h) (rk_reach hb hp h) _ t a rest rfl hh

/-- Under the same condition no schedule of finitely many goroutines goes on for ever. -/
theorem C91_ends_partial {body prog : Nat → List Call} {rank : Nat → Nat} {N : Nat}
    (hb : ∀ c, ∀ a ∈ body c, a.ranked body rank) (hp : ∀ t, ∀ a ∈ prog t, a.ranked body rank)
    (hN : ∀ t, N ≤ t → prog t = []) :
    ¬ ∃ f : Nat → St, f 0 = start prog ∧ ∀ n, ∃ t, Step body t (f n) (f (n + 1)) := by
  rintro ⟨f, h0, hf⟩
  have hreach : ∀ n, Reach body prog (f n) := by
    intro n
    induction n with
    | zero => rw [h0]; exact .start
    | succ n ih => obtain ⟨t, ht⟩ := hf n; exact .step ih ht
  have hstep : ∀ n, Relation.CutExpand (· < ·) (bags rank N (f (n + 1))) (bags rank N (f n)) := by
    intro n
    obtain ⟨t, ht⟩ := hf n
    refine bags_step (rk_reach hb hp (hreach n)) ht ?_
    apply Classical.byContradiction
    intro hlt
    exact step_busy ht (idle_reach hN (hreach n) t (by omega))
  have hwf : WellFounded (Relation.CutExpand ((· < ·) : Nat ×ₗ Nat → Nat ×ₗ Nat → Prop)) :=
    WellFounded.cutExpand wellFounded_lt
  have key : ∀ b n, bags rank N (f n) = b → False := by
    intro b
    induction b using hwf.induction with
    | _ b ih =>
      intro n hn
      exact ih _ (hn ▸ hstep n) (n + 1) rfl
  exact key _ 0 rfl

/-- A closer that uses the manager it is being closed by (`Append` or `Close`): its call never gets the lock, in no
execution, so neither it nor the `Close` around it ever returns, and every other call of the manager waits for ever,
too. -/
theorem C91_reentrant {body prog : Nat → List Call} {s s' : St} (h : Reach body prog s) {t : Nat} {c : Call}
    {cs : List Nat} {rest : List Act} (ht : s.thr t = .call c :: rest) (hr : Act.loop c.mgr cs ∈ rest)
    (hs : Steps body s s') :
    s'.thr t = s.thr t ∧
    ∀ u d l, s.thr u = .call d :: l → d.mgr = c.mgr → s'.thr u = s.thr u := by
  have key : Locks s' ∧ s'.thr t = s.thr t ∧ s'.mu c.mgr = some t ∧
      ∀ u d l, s.thr u = .call d :: l → d.mgr = c.mgr → s'.thr u = s.thr u := by
    induction hs with
    | refl =>
      have hl := locks_reach h
      exact ⟨hl, rfl, held_of_mem hl (a := .loop c.mgr cs) (by rw [ht]; exact List.mem_cons_of_mem _ hr)
        (by simp [on]), fun _ _ _ _ _ => rfl⟩
    | @step s1 s2 v _ hst ih =>
      obtain ⟨i0, i1, i2, i3⟩ := ih
      have hblk : ∀ u d l, s1.thr u = .call d :: l → d.mgr = c.mgr → u ≠ v := by
        rintro u d l hu hd rfl
        cases hst with
        | lockA m c' rest' h1 h2 =>
          rw [h1] at hu; injection hu with hu _; injection hu with hu; subst hu
          change m = c.mgr at hd
          rw [hd, i2] at h2; cases h2
        | lockC m rest' h1 h2 =>
          rw [h1] at hu; injection hu with hu _; injection hu with hu; subst hu
          change m = c.mgr at hd
          rw [hd, i2] at h2; cases h2
        | _ => simp_all
      have h4 : ∀ u d l, s.thr u = .call d :: l → d.mgr = c.mgr → s2.thr u = s.thr u := by
        intro u d l hu hd
        rw [step_other hst (hblk u d l (by rw [i3 u d l hu hd]; exact hu) hd)]
        exact i3 u d l hu hd
      have h1 := h4 t c rest ht rfl
      have hl2 := locks_step i0 hst
      exact ⟨hl2, h1, held_of_mem hl2 (a := .loop c.mgr cs) (by rw [h1, ht]; exact List.mem_cons_of_mem _ hr)
        (by simp [on]), h4⟩
  exact ⟨key.2.1, key.2.2.2⟩

/-- A manager appended to itself: one goroutine is enough. -/
theorem C91_refuted : ¬ C91_full := by
  intro hf
  let body : Nat → List Call := fun _ => [.close 0]
  let prog : Nat → List Call := fun t => if t = 0 then [.append 0 0, .close 0] else []
  have r0 := Reach.start (body := body) (prog := prog)
  have r1 := r0.step (.lockA (t := 0) _ 0 0 [.call (.close 0)] rfl rfl)
  have r2 := r1.step (.add (t := 0) _ 0 0 [.call (.close 0)] rfl)
  have r3 := r2.step (.unlock (t := 0) _ 0 [.call (.close 0)] rfl)
  have r4 := r3.step (.lockC (t := 0) _ 0 [] rfl rfl)
  have r5 := r4.step (.start (t := 0) _ 0 [] rfl)
  have r6 := r5.step (.run (t := 0) _ 0 0 [] [] rfl)
  obtain ⟨t, s', hs⟩ := hf _ _ _ r6 (fun hd => by have := hd 0; simp [St.to, body] at this)
  by_cases ht : t = 0
  · subst ht
    have h1 := (C91_reentrant r6 (t := 0) (c := .close 0) (cs := []) (rest := [.loop 0 []]) rfl
      (List.mem_cons_self) (.step .refl hs)).1
    cases hs with
    | lockC m rest h h2 => cases h; cases h2
    | lockA m c rest h h2 => cases h
    | _ => rename_i h; cases h
  · exact step_busy hs (by simp [St.to, St.lock, start, prog, ht])

/-- Two managers, each with a closer that appends to the other one, closed by two goroutines: no manager contains a
manager, and no closer uses its own manager. -/
theorem C91_refuted_crossed : ¬ C91_full := by
  intro hf
  let body : Nat → List Call := fun c => if c = 0 then [.append 1 9] else if c = 1 then [.append 0 9] else []
  let prog : Nat → List Call := fun t => if t = 0 then [.append 0 0, .close 0] else
    if t = 1 then [.append 1 1, .close 1] else []
  have r0 := Reach.start (body := body) (prog := prog)
  have r1 := r0.step (.lockA (t := 0) _ 0 0 [.call (.close 0)] rfl rfl)
  have r2 := r1.step (.add (t := 0) _ 0 0 [.call (.close 0)] rfl)
  have r3 := r2.step (.unlock (t := 0) _ 0 [.call (.close 0)] rfl)
  have r4 := r3.step (.lockC (t := 0) _ 0 [] rfl rfl)
  have r5 := r4.step (.start (t := 0) _ 0 [] rfl)
  have r6 := r5.step (.run (t := 0) _ 0 0 [] [] rfl)
  have r7 := r6.step (.lockA (t := 1) _ 1 1 [.call (.close 1)] rfl rfl)
  have r8 := r7.step (.add (t := 1) _ 1 1 [.call (.close 1)] rfl)
  have r9 := r8.step (.unlock (t := 1) _ 1 [.call (.close 1)] rfl)
  have r10 := r9.step (.lockC (t := 1) _ 1 [] rfl rfl)
  have r11 := r10.step (.start (t := 1) _ 1 [] rfl)
  have r12 := r11.step (.run (t := 1) _ 1 1 [] [] rfl)
  obtain ⟨t, s', hs⟩ := hf _ _ _ r12 (fun hd => by have := hd 0; simp [St.to, St.lock, body] at this)
  by_cases ht : t = 0
  · subst ht
    cases hs with
    | lockC m rest h h2 => cases h
    | lockA m c rest h h2 => cases h; cases h2
    | _ => rename_i h; cases h
  by_cases ht1 : t = 1
  · subst ht1
    cases hs with
    | lockC m rest h h2 => cases h
    | lockA m c rest h h2 => cases h; cases h2
    | _ => rename_i h; cases h
  · exact step_busy hs (by simp [St.to, St.lock, start, prog, ht, ht1])

section Examples

/-- A manager (1) that holds a manager (0) and a plain closer (9); manager 0 holds a plain closer (8). -/
abbrev exBody : Nat → List Call := fun c => if c = 0 then [.close 0] else []
abbrev exProg : Nat → List Call := fun t =>
  if t = 0 then [.append 0 8, .append 1 0, .append 1 9, .close 1] else if t = 1 then [.append 0 7, .close 0] else []

/-- `C91_partial`, `C91_ends_partial`: the managers' own numbers are ranks. -/
example : (∀ c, ∀ a ∈ exBody c, a.ranked exBody id) ∧ (∀ t, ∀ a ∈ exProg t, a.ranked exBody id) ∧
    ∀ t, 2 ≤ t → exProg t = [] := by
  refine ⟨?_, ?_, ?_⟩
  · intro c a ha
    by_cases hc : c = 0 <;> simp [exBody, hc] at ha
    subst ha; trivial
  · intro t a ha
    by_cases h0 : t = 0
    · simp [exProg, h0] at ha
      rcases ha with rfl | rfl | rfl | rfl <;> simp [Call.ranked, exBody, Call.mgr]
    · by_cases h1 : t = 1 <;> simp [exProg, h0, h1] at ha
      rcases ha with rfl | rfl <;> simp [Call.ranked, exBody]
  · intro t ht
    simp [exProg, show t ≠ 0 by omega, show t ≠ 1 by omega]

/-- `C91_sequential` and `C91_released`: what the history of a manager may be and what not. -/
example : replay 0 ⟨[], none⟩ [.added 0 0 8, .began 1 0, .closed 1 0 8, .added 0 1 5, .ended 1 0] = some ⟨[8], none⟩ ∧
    replay 0 ⟨[], none⟩ [.added 0 0 8, .began 1 0, .added 0 0 5] = none ∧
    replay 0 ⟨[], none⟩ [.added 0 0 8, .added 0 0 7, .began 1 0, .closed 1 0 7] = none ∧
    replay 0 ⟨[], none⟩ [.added 0 0 8, .began 1 0, .ended 1 0] = none ∧
    replay 0 ⟨[], none⟩ [.added 0 0 8, .began 1 0, .began 2 0] = none := by decide

/-- `C91_released`, `C91_program`: a program that has finished. -/
example : ∃ s, Reach (fun _ => []) (fun t => if t = 3 then [.append 0 8, .close 0] else []) s ∧ AllDone s ∧
    s.log = [.added 3 0 8, .began 3 0, .closed 3 0 8, .ended 3 0] := by
  have r0 := Reach.start (body := fun _ => []) (prog := fun t => if t = 3 then [.append 0 8, .close 0] else [])
  have r1 := r0.step (.lockA (t := 3) _ 0 8 [.call (.close 0)] rfl rfl)
  have r2 := r1.step (.add (t := 3) _ 0 8 [.call (.close 0)] rfl)
  have r3 := r2.step (.unlock (t := 3) _ 0 [.call (.close 0)] rfl)
  have r4 := r3.step (.lockC (t := 3) _ 0 [] rfl rfl)
  have r5 := r4.step (.start (t := 3) _ 0 [] rfl)
  have r6 := r5.step (.run (t := 3) _ 0 8 [] [] rfl)
  have r7 := r6.step (.done (t := 3) _ 0 [] rfl)
  have r8 := r7.step (.unlock (t := 3) _ 0 [] rfl)
  refine ⟨_, r8, fun t => ?_, rfl⟩
  by_cases ht : t = 3 <;> simp [St.to, St.lock, start, ht]

/-- `C91_reentrant`: a closer that appends to its own manager. -/
example : ∃ s, Reach (fun _ => [.append 0 5]) (fun t => if t = 3 then [.append 0 8, .close 0] else []) s ∧
    s.thr 3 = .call (.append 0 5) :: [.loop 0 []] := by
  have r0 := Reach.start (body := fun _ => [.append 0 5]) (prog := fun t => if t = 3 then [.append 0 8, .close 0] else [])
  have r1 := r0.step (.lockA (t := 3) _ 0 8 [.call (.close 0)] rfl rfl)
  have r2 := r1.step (.add (t := 3) _ 0 8 [.call (.close 0)] rfl)
  have r3 := r2.step (.unlock (t := 3) _ 0 [.call (.close 0)] rfl)
  have r4 := r3.step (.lockC (t := 3) _ 0 [] rfl rfl)
  have r5 := r4.step (.start (t := 3) _ 0 [] rfl)
  have r6 := r5.step (.run (t := 3) _ 0 8 [] [] rfl)
  exact ⟨_, r6, rfl⟩

end Examples

end Verif.CloseConc
