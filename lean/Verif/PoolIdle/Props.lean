import Verif.PoolIdle.Lemmas
/-!
# C107: idle workers are stopped when their time has come
-/
namespace Verif.PoolIdle
open Verif.GoPool

variable {mx idle δ : Int} {p : Nat} {T : TSt}

/-- A pass of the collector, timedpool.go:72-100, would take the workers `out` from the idle list and leave `stay`. -/
def Pass (idle : Int) (T : TSt) (out stay : List Nat) : Prop :=
  T.s.gc = .idle ∧ T.s.maxWorkers ≠ -1 ∧
  TStep idle 0 T { T with s := { T.s with dobby := stay, gc := .closing out } }

/-- The full statement: a pass stops exactly the idle workers whose handler returned longer ago than the timeout. -/
def C107_full : Prop := ∀ (mx idle δ : Int) (p : Nat) (T : TSt) (out stay : List Nat), 0 < mx → 0 ≤ δ → TReach mx p idle δ T →
  Pass idle T out stay → (∀ w ∈ out, idle < T.clock - T.done w) ∧ (∀ w ∈ stay, T.clock - T.done w ≤ idle)

theorem pass_cut {out stay : List Nat} (h : Pass idle T out stay) :
    ∃ l, cut (T.s.dobby.map T.s.tt) (T.clock - idle) = some l ∧ out = T.s.dobby.take l ∧ stay = T.s.dobby.drop l := by
  obtain ⟨hg, hx, h⟩ := h
  generalize hT : ({ T with s := { T.s with dobby := stay, gc := .closing out } } : TSt) = T' at h
  have hs : T'.s.gc = .closing out ∧ T'.s.dobby = stay := by subst hT; exact ⟨rfl, rfl⟩
  cases h with
  | wait d _ => rw [hg] at hs; cases hs.1
  | other s' st u => exact absurd hs.1 (u.2 hg out)
  | done k w c j _ => exact absurd (hg.symm.trans hs.1) (by simp)
  | stamp k w c _ => exact absurd (hg.symm.trans hs.1) (by simp)
  | back k w c _ _ _ => exact absurd (hg.symm.trans hs.1) (by simp)
  | tick l _ _ hl =>
    refine ⟨l, hl, ?_, hs.2.symm⟩
    have := hs.1
    injection this with this
    exact this.symm

/-- **C107** It is right up to the time that workers take from the return of the handler to the idle list: with at most `δ`
for that, only workers idle for more than the timeout less `δ` are stopped, and no worker stays that was idle for more
than the timeout and `δ`. Missing from the full statement: `δ`. -/
theorem C107_partial (hm : 0 < mx) (hδ : 0 ≤ δ) (h : TReach mx p idle δ T) {out stay : List Nat} (hp : Pass idle T out stay) :
    (∀ w ∈ out, idle - δ < T.clock - T.done w) ∧ (∀ w ∈ stay, T.clock - T.done w ≤ idle + δ) := by
  obtain ⟨l, hc, rfl, rfl⟩ := pass_cut hp
  have j := h.j hm hδ
  obtain ⟨hle, h1, h2⟩ := cut_ends hc
  rw [List.length_map] at hle h2
  have ord := List.pairwise_iff_getElem.1 j.ord
  constructor
  · intro w hw
    obtain ⟨i, hi, rfl⟩ := List.mem_iff_getElem.1 hw
    rw [List.length_take] at hi
    rw [List.getElem_take]
    rcases h1 with h1 | ⟨v, hv, hlt⟩
    · omega
    · rw [List.getElem?_map] at hv
      obtain ⟨x, hx, rfl⟩ := Option.map_eq_some_iff.1 hv
      obtain ⟨hlx, rfl⟩ := List.getElem?_eq_some_iff.1 hx
      have e1 := j.mem _ (List.getElem_mem (h := (by omega : i < T.s.dobby.length)))
      have e2 := j.mem _ (List.getElem_mem (h := hlx))
      have e3 : T.back T.s.dobby[i] ≤ T.back T.s.dobby[l - 1] := by
        rcases Nat.lt_or_ge i (l - 1) with hlt' | hge
        · exact ord i (l - 1) (by omega) hlx hlt'
        · have : i = l - 1 := by omega
          subst this; exact Int.le_refl _
      omega
  · intro w hw
    obtain ⟨i, hi, rfl⟩ := List.mem_iff_getElem.1 hw
    rw [List.length_drop] at hi
    rw [List.getElem_drop]
    rcases h2 with h2 | ⟨v, hv, hge⟩
    · omega
    · rw [List.getElem?_map] at hv
      obtain ⟨x, hx, rfl⟩ := Option.map_eq_some_iff.1 hv
      obtain ⟨hlx, rfl⟩ := List.getElem?_eq_some_iff.1 hx
      have e1 := j.mem _ (List.getElem_mem (h := (by omega : l + i < T.s.dobby.length)))
      have e2 := j.mem _ (List.getElem_mem (h := hlx))
      have e3 : T.back T.s.dobby[l] ≤ T.back T.s.dobby[l + i] := by
        rcases Nat.eq_zero_or_pos i with rfl | hpos
        · exact Int.le_refl _
        · exact ord l (l + i) hlx (by omega) (by omega)
      omega

/-- When workers take no time for that, it is exact. -/
theorem C107_exact (hm : 0 < mx) (h : TReach mx p idle 0 T) {out stay : List Nat} (hp : Pass idle T out stay) :
    (∀ w ∈ out, idle < T.clock - T.done w) ∧ (∀ w ∈ stay, T.clock - T.done w ≤ idle) := by
  have := C107_partial hm (Int.le_refl 0) h hp
  simpa using this

/-- Only workers in the idle list are stopped: none that works, or that a `Run` call has. -/
theorem C107_only_idle (hm : 0 < mx) (h : TReach mx p idle δ T) {out stay : List Nat} (hp : Pass idle T out stay) :
    out ++ stay = T.s.dobby ∧ ∀ w ∈ out, (∀ j, T.s.job j ≠ .sending w) ∧ (∀ k c j, T.s.gor k ≠ .handling w c j) ∧
      ∀ c, T.s.ch w = some c → T.s.buf c = none := by
  obtain ⟨l, hc, rfl, rfl⟩ := pass_cut hp
  refine ⟨List.take_append_drop .., fun w hw => ?_⟩
  obtain ⟨tok, cw, rdr, jc, i⟩ := inv_reach hm h.reach
  have hd := (i.dobby1 w).1 (List.mem_of_mem_take hw)
  refine ⟨fun j hj => ?_, fun k c j hk => ?_, fun c hc' => ?_⟩
  · have := (i.run j w).1 hj; rw [hd] at this; cases this
  · have := (i.busy1 k w c (by rw [hk]; rfl)).1; rw [hd] at this; cases this
  · cases hb : T.s.buf c with
    | none => rfl
    | some j =>
      have := i.chan2 c j hb
      rw [(i.cw1 w c hc').1, hd] at this; cases this

theorem untimed_same {s s' : St} (h : s'.gor = s.gor) (hg : s'.gc = s.gc) : Untimed s s' := by
  refine ⟨fun k => ?_, fun hi ws hc => ?_⟩
  · rw [h]; cases s.gor k <;> simp
  · rw [hg, hi] at hc; cases hc

theorem untimed_upd {s s' : St} {k : Nat} {q : GorPc} (h : s'.gor = fun i => if i = k then q else s.gor i)
    (hk : (s.gor k).busyOn = none) (hg : s'.gc = s.gc) : Untimed s s' := by
  refine ⟨fun k' => ?_, fun hi ws hc => ?_⟩
  · rw [h]
    by_cases e : k' = k
    · subst e; cases hp : s.gor k' <;> simp_all [GorPc.busyOn]
    · simp only [e, if_false]; cases s.gor k' <;> simp
  · rw [hg, hi] at hc; cases hc

/-- Two workers; the first returns from its handler at 5 and stamps itself, the second at 10, and is the first to reach the
idle list. At 27, with a timeout of 20, the pass stops both, the second after only 17. -/
theorem witness : ∃ T, TReach 2 0 20 100 T ∧ Pass 20 T [1, 0] [] ∧ T.clock = 27 ∧ T.done 1 = 10 := by
  have r0 : TReach 2 0 20 100 (tinit 2 0 (fun _ => 0) 5) := .init _ _ (by simp) (by simp)
  have r1 := r0.step (.other _ _ (.call _ 0 rfl) (untimed_same rfl rfl))
  have r2 := r1.step (.other _ _ (.runFresh _ 0 rfl (by decide) rfl (by decide)) (untimed_upd rfl rfl rfl))
  have r3 := r2.step (.other _ _ (.send _ 0 0 0 rfl rfl rfl rfl) (untimed_same rfl rfl))
  have r4 := r3.step (.other _ _ (.call _ 1 rfl) (untimed_same rfl rfl))
  have r5 := r4.step (.other _ _ (.runFresh _ 1 rfl (by decide) rfl (by decide)) (untimed_upd rfl rfl rfl))
  have r6 := r5.step (.other _ _ (.send _ 1 1 1 rfl rfl rfl rfl) (untimed_same rfl rfl))
  have r7 := r6.step (.other _ _ (.begin _ 0 0 rfl) (untimed_upd rfl rfl rfl))
  have r8 := r7.step (.other _ _ (.begin _ 1 1 rfl) (untimed_upd rfl rfl rfl))
  have r9 := r8.step (.other _ _ (.take _ 0 0 0 0 rfl rfl) (untimed_upd rfl rfl rfl))
  have r10 := r9.step (.other _ _ (.take _ 1 1 1 1 rfl rfl) (untimed_upd rfl rfl rfl))
  have r11 := r10.step (.done _ 0 0 0 0 rfl)
  have r12 := r11.step (.stamp _ 0 0 0 rfl)
  have r13 := r12.step (.wait _ 5 (by decide))
  have r14 := r13.step (.done _ 1 1 1 1 rfl)
  have r15 := r14.step (.stamp _ 1 1 1 rfl)
  have r16 := r15.step (.back _ 1 1 1 rfl (by decide) (by decide))
  have r17 := r16.step (.back _ 0 0 0 rfl (by decide) (by decide))
  have r18 := r17.step (.wait _ 17 (by decide))
  refine ⟨_, r18, ⟨rfl, by decide, ?_⟩, rfl, rfl⟩
  refine .tick _ 2 rfl (by decide) ?_
  show cut [10, 5] 7 = some 2
  simp [cut, cutLoop]

/-- **C107** is false as stated. -/
theorem C107_refuted : ¬ C107_full := fun h => by
  obtain ⟨T, r, hp, hc, hd⟩ := witness
  have := (h 2 20 100 0 T [1, 0] [] (by decide) (by decide) r hp).1 1 (by simp)
  rw [hc, hd] at this
  exact absurd this (by decide)

/-- And with the same workers in order only the first is stopped. -/
example : ∃ T, TReach 2 0 20 0 T ∧ Pass 20 T [0] [1] ∧ T.clock = 27 := by
  have r0 : TReach 2 0 20 0 (tinit 2 0 (fun _ => 0) 5) := .init _ _ (by simp) (by simp)
  have r1 := r0.step (.other _ _ (.call _ 0 rfl) (untimed_same rfl rfl))
  have r2 := r1.step (.other _ _ (.runFresh _ 0 rfl (by decide) rfl (by decide)) (untimed_upd rfl rfl rfl))
  have r3 := r2.step (.other _ _ (.send _ 0 0 0 rfl rfl rfl rfl) (untimed_same rfl rfl))
  have r4 := r3.step (.other _ _ (.call _ 1 rfl) (untimed_same rfl rfl))
  have r5 := r4.step (.other _ _ (.runFresh _ 1 rfl (by decide) rfl (by decide)) (untimed_upd rfl rfl rfl))
  have r6 := r5.step (.other _ _ (.send _ 1 1 1 rfl rfl rfl rfl) (untimed_same rfl rfl))
  have r7 := r6.step (.other _ _ (.begin _ 0 0 rfl) (untimed_upd rfl rfl rfl))
  have r8 := r7.step (.other _ _ (.begin _ 1 1 rfl) (untimed_upd rfl rfl rfl))
  have r9 := r8.step (.other _ _ (.take _ 0 0 0 0 rfl rfl) (untimed_upd rfl rfl rfl))
  have r10 := r9.step (.other _ _ (.take _ 1 1 1 1 rfl rfl) (untimed_upd rfl rfl rfl))
  have r11 := r10.step (.done _ 0 0 0 0 rfl)
  have r12 := r11.step (.stamp _ 0 0 0 rfl)
  have r13 := r12.step (.back _ 0 0 0 rfl (by decide) (by decide))
  have r14 := r13.step (.wait _ 5 (by decide))
  have r15 := r14.step (.done _ 1 1 1 1 rfl)
  have r16 := r15.step (.stamp _ 1 1 1 rfl)
  have r17 := r16.step (.back _ 1 1 1 rfl (by decide) (by decide))
  have r18 := r17.step (.wait _ 17 (by decide))
  refine ⟨_, r18, ⟨rfl, by decide, ?_⟩, rfl⟩
  refine .tick _ 1 rfl (by decide) ?_
  show cut [5, 10] 7 = some 1
  simp [cut, cutLoop]

end Verif.PoolIdle
