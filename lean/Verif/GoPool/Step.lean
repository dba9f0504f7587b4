import Verif.GoPool.Inv
/-!
# The invariant is preserved
-/
namespace Verif.GoPool
open Verif.Go

macro "g_auto" : tactic => `(tactic| grind [GorPc.busyOn, GcPc.held, GcPc.todo, Loc.active, Loc.waiting])

set_option hygiene false in
macro "inv_auto" : tactic => `(tactic|
  (constructor <;> (try simp only [St.setJob, St.setGor, St.setStop, St.spawn]) <;>
    first
    | (clear i20 i21 i22 i23; g_auto)
    | g_auto
    | (clear i20 i21 i22 i23 i17 i18 i19 i7 i8 i9 i10 i11; g_auto)
    | (clear i20 i21 i22 i23 i7 i8 i9 i10 i11 i1 i2; g_auto)
    | (clear i17 i18 i19 i7 i8 i9 i10 i11 i1 i2; g_auto)
    | skip))

variable {s s' : St} {tok : Nat → Loc} {cw rdr jc : Nat → Nat}

theorem inv_step_run (i : Inv s tok cw rdr jc) {j w : Nat} (h : s.job j = .called) (h1 : s.maxWorkers ≠ -1)
    {p : List Nat} {n : Nat} (hp : ∀ x, x ∈ p → x ∈ s.pool ∧ x ≠ w) (hpn : p.Nodup) (hw : tok w = .pool ∨ tok w = .none)
    (hn : s.nextW ≤ n) (hwn : w < n) :
    ∃ tok' cw' rdr' jc', Inv (({ s with pool := p, nextW := n }.spawn w).setJob j (.sending w)) tok' cw' rdr' jc' := by
  obtain ⟨i1, i2, i3, i4, i5, i6, i7, i8, i9, i10, i11, i12, i13, i14, i15, i16, i17, i18, i19, i20, i21, i22, i23, i24, i25⟩ := i
  refine ⟨fun x => if x = w then .run j else tok x, fun x => if x = s.nextC then w else cw x,
      fun x => if x = w then s.nextG else rdr x, jc, ?_⟩
  inv_auto

theorem step_call (i : Inv s tok cw rdr jc) (j : Nat) (h : s.job j = .new) :
    ∃ tok' cw' rdr' jc', Inv ((s.setJob j .called)) tok' cw' rdr' jc' := by
  obtain ⟨i1, i2, i3, i4, i5, i6, i7, i8, i9, i10, i11, i12, i13, i14, i15, i16, i17, i18, i19, i20, i21, i22, i23, i24, i25⟩ := i
  refine ⟨tok, cw, rdr, jc, ?_⟩; inv_auto

theorem step_runDraining (i : Inv s tok cw rdr jc) (j : Nat) (h : s.job j = .called) (h1 : s.maxWorkers = -1) :
    ∃ tok' cw' rdr' jc', Inv ((s.setJob j .rejected)) tok' cw' rdr' jc' := by
  obtain ⟨i1, i2, i3, i4, i5, i6, i7, i8, i9, i10, i11, i12, i13, i14, i15, i16, i17, i18, i19, i20, i21, i22, i23, i24, i25⟩ := i
  refine ⟨tok, cw, rdr, jc, ?_⟩; inv_auto

theorem step_runReuse (i : Inv s tok cw rdr jc) (j : Nat) (ws : List Nat) (w : Nat) (h : s.job j = .called) (h1 : s.maxWorkers ≠ -1) (h2 : s.dobby = ws ++ [w]) :
    ∃ tok' cw' rdr' jc', Inv (({ s with dobby := ws }.setJob j (.sending w))) tok' cw' rdr' jc' := by
  obtain ⟨i1, i2, i3, i4, i5, i6, i7, i8, i9, i10, i11, i12, i13, i14, i15, i16, i17, i18, i19, i20, i21, i22, i23, i24, i25⟩ := i
  refine ⟨fun x => if x = w then .run j else tok x, cw, rdr, jc, ?_⟩; inv_auto

theorem step_runPooled (i : Inv s tok cw rdr jc) (j w : Nat) (p p' : List Nat) (h : s.job j = .called) (h1 : s.maxWorkers ≠ -1) (h2 : s.dobby = []) (h3 : s.workers < s.maxWorkers) (h4 : s.pool = p ++ w :: p') :
    ∃ tok' cw' rdr' jc', Inv ((({ s with pool := p ++ p' }.spawn w).setJob j (.sending w))) tok' cw' rdr' jc' := by
  have i' := i
  obtain ⟨i1, i2, i3, i4, i5, i6, i7, i8, i9, i10, i11, i12, i13, i14, i15, i16, i17, i18, i19, i20, i21, i22, i23, i24, i25⟩ := i
  have hnd := i11
  rw [h4] at hnd
  have hperm : (p ++ w :: p').Perm (w :: (p ++ p')) := List.perm_middle
  have hnd2 := hperm.nodup_iff.1 hnd
  rw [List.nodup_cons] at hnd2
  have hw : tok w = .pool := i10 w (by rw [h4]; simp)
  exact inv_step_run i' h h1 (fun x hx => ⟨by rw [h4]; simp at hx ⊢; tauto, fun e => hnd2.1 (e ▸ hx)⟩) hnd2.2 (Or.inl hw)
    (Nat.le_refl _) (by by_contra hc; have := i12 w (by omega); simp [this] at hw)

theorem step_runFresh (i : Inv s tok cw rdr jc) (j : Nat) (h : s.job j = .called) (h1 : s.maxWorkers ≠ -1) (h2 : s.dobby = []) (h3 : s.workers < s.maxWorkers) :
    ∃ tok' cw' rdr' jc', Inv ((({ s with nextW := s.nextW + 1 }.spawn s.nextW).setJob j (.sending s.nextW))) tok' cw' rdr' jc' := by
  have i' := i
  obtain ⟨i1, i2, i3, i4, i5, i6, i7, i8, i9, i10, i11, i12, i13, i14, i15, i16, i17, i18, i19, i20, i21, i22, i23, i24, i25⟩ := i
  have hw := i12 s.nextW (Nat.le_refl _)
  exact inv_step_run i' h h1 (p := s.pool) (fun x hx => ⟨hx, fun e => by have := i10 x hx; rw [e, hw] at this; cases this⟩) i11
    (Or.inr hw) (Nat.le_succ _) (Nat.lt_succ_self _)

theorem step_runFull (i : Inv s tok cw rdr jc) (j : Nat) (h : s.job j = .called) (h1 : s.maxWorkers ≠ -1) (h2 : s.dobby = []) (h3 : ¬ s.workers < s.maxWorkers) :
    ∃ tok' cw' rdr' jc', Inv ((s.setJob j .rejected)) tok' cw' rdr' jc' := by
  obtain ⟨i1, i2, i3, i4, i5, i6, i7, i8, i9, i10, i11, i12, i13, i14, i15, i16, i17, i18, i19, i20, i21, i22, i23, i24, i25⟩ := i
  refine ⟨tok, cw, rdr, jc, ?_⟩; inv_auto

theorem step_send (i : Inv s tok cw rdr jc) (j w c : Nat) (h : s.job j = .sending w) (h1 : s.ch w = some c) (h2 : s.closed c = false) (h3 : s.buf c = none) :
    ∃ tok' cw' rdr' jc', Inv (({ s with buf := fun x => if x = c then some j else s.buf x }.setJob j .accepted)) tok' cw' rdr' jc' := by
  obtain ⟨i1, i2, i3, i4, i5, i6, i7, i8, i9, i10, i11, i12, i13, i14, i15, i16, i17, i18, i19, i20, i21, i22, i23, i24, i25⟩ := i
  refine ⟨fun x => if x = w then .chan c j else tok x, cw, rdr, fun x => if x = j then c else jc x, ?_⟩; inv_auto
  intro c' j' e
  by_cases hc : c' = c
  · subst hc
    simp only [if_pos] at e
    cases e
    exact ⟨by simp, i21 _ (by simp [h]), by simp⟩
  · rw [if_neg hc] at e
    obtain ⟨e1, e2, e3⟩ := i20 c' j' e
    have hj : j' ≠ j := by rintro rfl; rw [h] at e1; cases e1
    simp [hj, e1, e2, e3]

theorem step_sendCrash (i : Inv s tok cw rdr jc) (j w c : Nat) (h : s.job j = .sending w) (h1 : s.ch w = some c) (h2 : s.closed c = true) :
    ∃ tok' cw' rdr' jc', Inv ({ s with crashed := true }) tok' cw' rdr' jc' := by
  obtain ⟨i1, i2, i3, i4, i5, i6, i7, i8, i9, i10, i11, i12, i13, i14, i15, i16, i17, i18, i19, i20, i21, i22, i23, i24, i25⟩ := i
  exfalso
  have := (i14 w (by rw [(i3 j w).1 h]; rfl)).2 c h1
  simp [this] at h2

theorem step_begin (i : Inv s tok cw rdr jc) (k w : Nat) (h : s.gor k = .start w) :
    ∃ tok' cw' rdr' jc', Inv ((s.setGor k (.recv w (s.ch w)))) tok' cw' rdr' jc' := by
  obtain ⟨i1, i2, i3, i4, i5, i6, i7, i8, i9, i10, i11, i12, i13, i14, i15, i16, i17, i18, i19, i20, i21, i22, i23, i24, i25⟩ := i
  refine ⟨tok, cw, rdr, jc, ?_⟩; inv_auto

theorem step_take (i : Inv s tok cw rdr jc) (k w c j : Nat) (h : s.gor k = .recv w (some c)) (h1 : s.buf c = some j) :
    ∃ tok' cw' rdr' jc', Inv (({ s with buf := fun x => if x = c then none else s.buf x, handled := fun i => if i = j then s.handled i + 1 else s.handled i }.setGor k (.handling w c j))) tok' cw' rdr' jc' := by
  obtain ⟨i1, i2, i3, i4, i5, i6, i7, i8, i9, i10, i11, i12, i13, i14, i15, i16, i17, i18, i19, i20, i21, i22, i23, i24, i25⟩ := i
  refine ⟨fun x => if x = w then .busy k else tok x, cw, rdr, jc, ?_⟩; inv_auto

theorem step_rangeEnd (i : Inv s tok cw rdr jc) (k w c : Nat) (h : s.gor k = .recv w (some c)) (h1 : s.buf c = none) (h2 : s.closed c = true) :
    ∃ tok' cw' rdr' jc', Inv ((s.setGor k .exiting)) tok' cw' rdr' jc' := by
  obtain ⟨i1, i2, i3, i4, i5, i6, i7, i8, i9, i10, i11, i12, i13, i14, i15, i16, i17, i18, i19, i20, i21, i22, i23, i24, i25⟩ := i
  refine ⟨tok, cw, rdr, jc, ?_⟩; inv_auto
  intro x hx hm
  by_cases hk : rdr x = k
  · exfalso
    have hr := i17 x hx hm
    rw [hk, h] at hr
    obtain ⟨rfl, hc⟩ : w = x ∧ some c = s.ch x := by simpa using hr
    cases ht : tok w with
    | dobby => have := (i15 w ht).2 (fun e => hm e ht) c hc.symm; rw [h2] at this; cases this
    | run _ => have := (i14 w (by rw [ht]; rfl)).2 c hc.symm; rw [h2] at this; cases this
    | chan _ _ => have := (i14 w (by rw [ht]; rfl)).2 c hc.symm; rw [h2] at this; cases this
    | _ => rw [ht] at hx; cases hx
  · rw [if_neg hk]; exact i17 x hx hm

theorem step_handled (i : Inv s tok cw rdr jc) (k w c j : Nat) (h : s.gor k = .handling w c j) :
    ∃ tok' cw' rdr' jc', Inv ((s.setGor k (.stamp w c))) tok' cw' rdr' jc' := by
  obtain ⟨i1, i2, i3, i4, i5, i6, i7, i8, i9, i10, i11, i12, i13, i14, i15, i16, i17, i18, i19, i20, i21, i22, i23, i24, i25⟩ := i
  refine ⟨tok, cw, rdr, jc, ?_⟩; inv_auto

theorem step_stamp (i : Inv s tok cw rdr jc) (k w c : Nat) (t : Int) (h : s.gor k = .stamp w c) :
    ∃ tok' cw' rdr' jc', Inv (({ s with tt := fun x => if x = w then t else s.tt x }.setGor k (.free w c))) tok' cw' rdr' jc' := by
  obtain ⟨i1, i2, i3, i4, i5, i6, i7, i8, i9, i10, i11, i12, i13, i14, i15, i16, i17, i18, i19, i20, i21, i22, i23, i24, i25⟩ := i
  refine ⟨tok, cw, rdr, jc, ?_⟩; inv_auto

theorem step_freeDraining (i : Inv s tok cw rdr jc) (k w c : Nat) (h : s.gor k = .free w c) (h1 : s.maxWorkers = -1) :
    ∃ tok' cw' rdr' jc', Inv (({ s with workers := s.workers - 1 }.setGor k .dead)) tok' cw' rdr' jc' := by
  obtain ⟨i1, i2, i3, i4, i5, i6, i7, i8, i9, i10, i11, i12, i13, i14, i15, i16, i17, i18, i19, i20, i21, i22, i23, i24, i25⟩ := i
  obtain ⟨hb1, hb2⟩ := i6 k w c (by rw [h]; rfl)
  refine ⟨fun x => if x = w then .retired else tok x, cw, rdr, jc, ?_⟩; inv_auto

theorem step_freeBack (i : Inv s tok cw rdr jc) (k w c : Nat) (h : s.gor k = .free w c) (h1 : s.maxWorkers ≠ -1) :
    ∃ tok' cw' rdr' jc', Inv (({ s with dobby := s.dobby ++ [w] }.setGor k (.recv w (some c)))) tok' cw' rdr' jc' := by
  obtain ⟨i1, i2, i3, i4, i5, i6, i7, i8, i9, i10, i11, i12, i13, i14, i15, i16, i17, i18, i19, i20, i21, i22, i23, i24, i25⟩ := i
  obtain ⟨hb1, hb2⟩ := i6 k w c (by rw [h]; rfl)
  have hb3 := i14 w (by rw [hb1]; rfl)
  refine ⟨fun x => if x = w then .dobby else tok x, cw, fun x => if x = w then k else rdr x, jc, ?_⟩; inv_auto

theorem step_exit (i : Inv s tok cw rdr jc) (k : Nat) (h : s.gor k = .exiting) :
    ∃ tok' cw' rdr' jc', Inv (({ s with workers := s.workers - 1 }.setGor k .dead)) tok' cw' rdr' jc' := by
  obtain ⟨i1, i2, i3, i4, i5, i6, i7, i8, i9, i10, i11, i12, i13, i14, i15, i16, i17, i18, i19, i20, i21, i22, i23, i24, i25⟩ := i
  refine ⟨tok, cw, rdr, jc, ?_⟩; inv_auto

theorem step_tick (i : Inv s tok cw rdr jc) (now : Int) (l : Nat) (h : s.gc = .idle) (h1 : s.maxWorkers ≠ -1) (h2 : cut (s.dobby.map s.tt) now = some l) :
    ∃ tok' cw' rdr' jc', Inv ({ s with dobby := s.dobby.drop l, gc := .closing (s.dobby.take l) }) tok' cw' rdr' jc' := by
  obtain ⟨i1, i2, i3, i4, i5, i6, i7, i8, i9, i10, i11, i12, i13, i14, i15, i16, i17, i18, i19, i20, i21, i22, i23, i24, i25⟩ := i
  have hsplit := List.take_append_drop l s.dobby
  have hnd := i2
  rw [← hsplit, List.nodup_append] at hnd
  obtain ⟨n1, n2, n3⟩ := hnd
  have hmem : ∀ x, x ∈ s.dobby ↔ x ∈ s.dobby.take l ∨ x ∈ s.dobby.drop l := fun x => by
    rw [← List.mem_append, hsplit]
  generalize s.dobby.take l = a at *
  generalize s.dobby.drop l = b at *
  refine ⟨fun x => if x ∈ a then .gc else tok x, cw, rdr, jc, ?_⟩; inv_auto

theorem step_tickCrash (i : Inv s tok cw rdr jc) (now : Int) (h : s.gc = .idle) (h1 : s.maxWorkers ≠ -1) (h2 : cut (s.dobby.map s.tt) now = none) :
    ∃ tok' cw' rdr' jc', Inv ({ s with crashed := true }) tok' cw' rdr' jc' := by
  obtain ⟨i1, i2, i3, i4, i5, i6, i7, i8, i9, i10, i11, i12, i13, i14, i15, i16, i17, i18, i19, i20, i21, i22, i23, i24, i25⟩ := i
  obtain ⟨x, hx, _⟩ := cut_some (s.dobby.map s.tt) now
  rw [hx] at h2; cases h2

theorem step_tickDraining (i : Inv s tok cw rdr jc) (cl : Nat → Bool) (h : s.gc = .idle) (h1 : s.maxWorkers = -1) (h2 : closeAll s.ch s.dobby s.closed = some cl) :
    ∃ tok' cw' rdr' jc', Inv ({ s with closed := cl, gc := .dead }) tok' cw' rdr' jc' := by
  obtain ⟨i1, i2, i3, i4, i5, i6, i7, i8, i9, i10, i11, i12, i13, i14, i15, i16, i17, i18, i19, i20, i21, i22, i23, i24, i25⟩ := i
  rw [i24, h] at h1; cases h1

theorem step_tickDrainingCrash (i : Inv s tok cw rdr jc)  (h : s.gc = .idle) (h1 : s.maxWorkers = -1) (h2 : closeAll s.ch s.dobby s.closed = none) :
    ∃ tok' cw' rdr' jc', Inv ({ s with crashed := true }) tok' cw' rdr' jc' := by
  obtain ⟨i1, i2, i3, i4, i5, i6, i7, i8, i9, i10, i11, i12, i13, i14, i15, i16, i17, i18, i19, i20, i21, i22, i23, i24, i25⟩ := i
  rw [i24, h] at h1; cases h1

theorem step_closeOne (i : Inv s tok cw rdr jc) (w : Nat) (ws : List Nat) (c : Nat) (h : s.gc = .closing (w :: ws)) (h1 : s.ch w = some c) (h2 : s.closed c = false) :
    ∃ tok' cw' rdr' jc', Inv ({ s with closed := fun x => if x = c then true else s.closed x, gc := .clearing w ws }) tok' cw' rdr' jc' := by
  obtain ⟨i1, i2, i3, i4, i5, i6, i7, i8, i9, i10, i11, i12, i13, i14, i15, i16, i17, i18, i19, i20, i21, i22, i23, i24, i25⟩ := i
  refine ⟨tok, cw, rdr, jc, ?_⟩; inv_auto

theorem step_closeCrash (i : Inv s tok cw rdr jc) (w : Nat) (ws : List Nat) (h : s.gc = .closing (w :: ws)) (h1 : (∀ c, s.ch w = some c → s.closed c = true)) :
    ∃ tok' cw' rdr' jc', Inv ({ s with crashed := true }) tok' cw' rdr' jc' := by
  obtain ⟨i1, i2, i3, i4, i5, i6, i7, i8, i9, i10, i11, i12, i13, i14, i15, i16, i17, i18, i19, i20, i21, i22, i23, i24, i25⟩ := i
  exfalso
  obtain ⟨g1, g2⟩ := i9 w (by rw [h]; exact List.mem_cons_self ..)
  obtain ⟨c, hc⟩ := Option.ne_none_iff_exists'.1 g1
  have := h1 c hc
  simp [g2 c hc] at this

theorem step_clearOne (i : Inv s tok cw rdr jc) (w : Nat) (ws : List Nat) (h : s.gc = .clearing w ws) :
    ∃ tok' cw' rdr' jc', Inv ({ s with tt := fun x => if x = w then 0 else s.tt x, ch := fun x => if x = w then none else s.ch x, gc := .putting w ws }) tok' cw' rdr' jc' := by
  obtain ⟨i1, i2, i3, i4, i5, i6, i7, i8, i9, i10, i11, i12, i13, i14, i15, i16, i17, i18, i19, i20, i21, i22, i23, i24, i25⟩ := i
  refine ⟨tok, cw, rdr, jc, ?_⟩; inv_auto

theorem step_putOne (i : Inv s tok cw rdr jc) (w : Nat) (ws : List Nat) (h : s.gc = .putting w ws) :
    ∃ tok' cw' rdr' jc', Inv ({ s with pool := w :: s.pool, gc := .closing ws }) tok' cw' rdr' jc' := by
  obtain ⟨i1, i2, i3, i4, i5, i6, i7, i8, i9, i10, i11, i12, i13, i14, i15, i16, i17, i18, i19, i20, i21, i22, i23, i24, i25⟩ := i
  refine ⟨fun x => if x = w then .pool else tok x, cw, rdr, jc, ?_⟩; inv_auto

theorem step_collected (i : Inv s tok cw rdr jc)  (h : s.gc = .closing []) :
    ∃ tok' cw' rdr' jc', Inv ({ s with gc := .idle }) tok' cw' rdr' jc' := by
  obtain ⟨i1, i2, i3, i4, i5, i6, i7, i8, i9, i10, i11, i12, i13, i14, i15, i16, i17, i18, i19, i20, i21, i22, i23, i24, i25⟩ := i
  refine ⟨tok, cw, rdr, jc, ?_⟩; inv_auto

theorem step_poolForget (i : Inv s tok cw rdr jc) (w : Nat) (p p' : List Nat) (h : s.pool = p ++ w :: p') :
    ∃ tok' cw' rdr' jc', Inv ({ s with pool := p ++ p' }) tok' cw' rdr' jc' := by
  obtain ⟨i1, i2, i3, i4, i5, i6, i7, i8, i9, i10, i11, i12, i13, i14, i15, i16, i17, i18, i19, i20, i21, i22, i23, i24, i25⟩ := i
  have hnd := i11
  rw [h] at hnd
  have hperm : (p ++ w :: p').Perm (w :: (p ++ p')) := List.perm_middle
  have hnd2 := hperm.nodup_iff.1 hnd
  rw [List.nodup_cons] at hnd2
  have hmem : ∀ x, x ∈ s.pool ↔ x = w ∨ x ∈ p ++ p' := fun x => by rw [h, hperm.mem_iff, List.mem_cons]
  generalize p ++ p' = q at *
  obtain ⟨hq1, hq2⟩ := hnd2
  clear hperm hnd
  refine ⟨fun x => if x = w then .retired else tok x, cw, rdr, jc, ?_⟩; inv_auto

theorem step_stopCall (i : Inv s tok cw rdr jc) (k : Nat) (h : s.stop k = .new) (h1 : s.stopSet = true) :
    ∃ tok' cw' rdr' jc', Inv ((s.setStop k .sending)) tok' cw' rdr' jc' := by
  obtain ⟨i1, i2, i3, i4, i5, i6, i7, i8, i9, i10, i11, i12, i13, i14, i15, i16, i17, i18, i19, i20, i21, i22, i23, i24, i25⟩ := i
  refine ⟨tok, cw, rdr, jc, ?_⟩; inv_auto

theorem step_stopNil (i : Inv s tok cw rdr jc) (k : Nat) (h : s.stop k = .new) (h1 : s.stopSet = false) :
    ∃ tok' cw' rdr' jc', Inv ((s.setStop k .returned)) tok' cw' rdr' jc' := by
  obtain ⟨i1, i2, i3, i4, i5, i6, i7, i8, i9, i10, i11, i12, i13, i14, i15, i16, i17, i18, i19, i20, i21, i22, i23, i24, i25⟩ := i
  refine ⟨tok, cw, rdr, jc, ?_⟩; inv_auto

theorem step_stopSignal (i : Inv s tok cw rdr jc) (k : Nat) (h : s.stop k = .sending) (h1 : s.stopSet = true) (h2 : s.gc = .idle) :
    ∃ tok' cw' rdr' jc', Inv (({ s with gc := .stopping }.setStop k .sent)) tok' cw' rdr' jc' := by
  obtain ⟨i1, i2, i3, i4, i5, i6, i7, i8, i9, i10, i11, i12, i13, i14, i15, i16, i17, i18, i19, i20, i21, i22, i23, i24, i25⟩ := i
  refine ⟨tok, cw, rdr, jc, ?_⟩; inv_auto

theorem step_stopClear (i : Inv s tok cw rdr jc) (k : Nat) (h : s.stop k = .sent) :
    ∃ tok' cw' rdr' jc', Inv (({ s with stopSet := false }.setStop k .returned)) tok' cw' rdr' jc' := by
  obtain ⟨i1, i2, i3, i4, i5, i6, i7, i8, i9, i10, i11, i12, i13, i14, i15, i16, i17, i18, i19, i20, i21, i22, i23, i24, i25⟩ := i
  refine ⟨tok, cw, rdr, jc, ?_⟩; inv_auto

theorem step_stopAll (i : Inv s tok cw rdr jc) (cl : Nat → Bool) (h : s.gc = .stopping) (h1 : closeAll s.ch s.dobby s.closed = some cl) :
    ∃ tok' cw' rdr' jc', Inv ({ s with maxWorkers := -1, closed := cl, gc := .dead }) tok' cw' rdr' jc' := by
  obtain ⟨i1, i2, i3, i4, i5, i6, i7, i8, i9, i10, i11, i12, i13, i14, i15, i16, i17, i18, i19, i20, i21, i22, i23, i24, i25⟩ := i
  obtain ⟨cl', e1, e2⟩ := closeAll_some (ch := s.ch) (cw := cw) (fun w c hc => (i13 w c hc).1) s.dobby s.closed i2 (fun w hw => by
    have hd := (i1 w).1 hw
    exact ⟨(i15 w hd).1, (i15 w hd).2 (by rw [Ne, i24, h]; simp)⟩)
  rw [h1] at e1
  obtain rfl : cl = cl' := by simpa using e1
  clear e1 h1
  have e3 : ∀ c, cl c = true → s.closed c = true ∨ (s.ch (cw c) = some c ∧ tok (cw c) = .dobby) := by
    intro c hc
    rcases (e2 c).1 hc with h' | ⟨w, hw, h'⟩
    · exact Or.inl h'
    · rw [(i13 w c h').1]; exact Or.inr ⟨h', (i1 w).1 hw⟩
  clear e2
  refine ⟨tok, cw, rdr, jc, ?_⟩; inv_auto

theorem step_stopAllCrash (i : Inv s tok cw rdr jc)  (h : s.gc = .stopping) (h1 : closeAll s.ch s.dobby s.closed = none) :
    ∃ tok' cw' rdr' jc', Inv ({ s with crashed := true }) tok' cw' rdr' jc' := by
  obtain ⟨i1, i2, i3, i4, i5, i6, i7, i8, i9, i10, i11, i12, i13, i14, i15, i16, i17, i18, i19, i20, i21, i22, i23, i24, i25⟩ := i
  exfalso
  obtain ⟨cl', e1, e2⟩ := closeAll_some (ch := s.ch) (cw := cw) (fun w c hc => (i13 w c hc).1) s.dobby s.closed i2 (fun w hw => by
    have hd := (i1 w).1 hw
    exact ⟨(i15 w hd).1, (i15 w hd).2 (by rw [Ne, i24, h]; simp)⟩)
  rw [h1] at e1; cases e1

theorem inv_step (i : Inv s tok cw rdr jc) (st : Step s s') : ∃ tok' cw' rdr' jc', Inv s' tok' cw' rdr' jc' := by
  cases st with
  | call j h => exact step_call i j h
  | runDraining j h h1 => exact step_runDraining i j h h1
  | runReuse j ws w h h1 h2 => exact step_runReuse i j ws w h h1 h2
  | runPooled j w p p' h h1 h2 h3 h4 => exact step_runPooled i j w p p' h h1 h2 h3 h4
  | runFresh j h h1 h2 h3 => exact step_runFresh i j h h1 h2 h3
  | runFull j h h1 h2 h3 => exact step_runFull i j h h1 h2 h3
  | send j w c h h1 h2 h3 => exact step_send i j w c h h1 h2 h3
  | sendCrash j w c h h1 h2 => exact step_sendCrash i j w c h h1 h2
  | begin k w h => exact step_begin i k w h
  | take k w c j h h1 => exact step_take i k w c j h h1
  | rangeEnd k w c h h1 h2 => exact step_rangeEnd i k w c h h1 h2
  | handled k w c j h => exact step_handled i k w c j h
  | stamp k w c t h => exact step_stamp i k w c t h
  | freeDraining k w c h h1 => exact step_freeDraining i k w c h h1
  | freeBack k w c h h1 => exact step_freeBack i k w c h h1
  | exit k h => exact step_exit i k h
  | tick now l h h1 h2 => exact step_tick i now l h h1 h2
  | tickCrash now h h1 h2 => exact step_tickCrash i now h h1 h2
  | tickDraining cl h h1 h2 => exact step_tickDraining i cl h h1 h2
  | tickDrainingCrash h h1 h2 => exact step_tickDrainingCrash i h h1 h2
  | closeOne w ws c h h1 h2 => exact step_closeOne i w ws c h h1 h2
  | closeCrash w ws h h1 => exact step_closeCrash i w ws h h1
  | clearOne w ws h => exact step_clearOne i w ws h
  | putOne w ws h => exact step_putOne i w ws h
  | collected h => exact step_collected i h
  | poolForget w p p' h => exact step_poolForget i w p p' h
  | stopCall k h h1 => exact step_stopCall i k h h1
  | stopNil k h h1 => exact step_stopNil i k h h1
  | stopSignal k h h1 h2 => exact step_stopSignal i k h h1 h2
  | stopClear k h => exact step_stopClear i k h
  | stopAll cl h h1 => exact step_stopAll i cl h h1
  | stopAllCrash h h1 => exact step_stopAllCrash i h h1

theorem inv_init {mx : Int} (hm : 0 < mx) (p : Nat) (t : Nat → Int) :
    Inv (init mx p t) (fun w => if w < p then .dobby else .none) (fun c => c) (fun w => w) (fun _ => 0) := by
  constructor <;> simp only [init] <;> grind [GorPc.busyOn, GcPc.held, GcPc.todo, Loc.active, Loc.waiting, List.nodup_range]

theorem inv_reach {mx : Int} (hm : 0 < mx) {p : Nat} (r : Reach mx p s) : ∃ tok cw rdr jc, Inv s tok cw rdr jc := by
  induction r with
  | init t => exact ⟨_, _, _, _, inv_init hm p t⟩
  | step _ st ih =>
    obtain ⟨tok, cw, rdr, jc, i⟩ := ih
    exact inv_step i st

end Verif.GoPool
