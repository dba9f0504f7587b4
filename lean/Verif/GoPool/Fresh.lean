import Verif.GoPool.Step
/-!
# Pools without preheated workers: no goroutine is left behind

Ghosts: `rd` is the goroutine of each worker, `jb` the job the worker was last taken for.
-/
namespace Verif.GoPool
open Verif.Go

/-- The job waiting in a worker's channel. -/
def St.queued (s : St) (w : Nat) : Option Nat := match s.ch w with | none => none | some c => s.buf c

structure Fr (s : St) (rd jb : Nat → Nat) : Prop where
  nonil : ∀ k w, s.gor k ≠ .recv w none
  start : ∀ k w, s.gor k = .start w → rd w = k ∧ (s.job (jb w) = .sending w ∨ s.queued w = some (jb w))
  recv : ∀ k w c, s.gor k = .recv w (some c) → s.closed c = true ∨ (s.ch w = some c ∧ rd w = k ∧
    (w ∈ s.dobby ∨ w ∈ s.gc.held ∨ s.job (jb w) = .sending w ∨ s.queued w = some (jb w)))
  busy : ∀ k w c, (s.gor k).busyOn = some (w, c) → rd w = k
  clr : ∀ w ws, s.gc = .clearing w ws → ∀ c, s.ch w = some c → s.closed c = true
  put : ∀ w ws, s.gc = .putting w ws → s.ch w = none
  pool : ∀ w, w ∈ s.pool → s.ch w = none
  new : ∀ w, s.nextW ≤ w → s.ch w = none
  stopped : s.maxWorkers = -1 → ∀ w, w ∈ s.dobby → ∀ c, s.ch w = some c → s.closed c = true

set_option hygiene false in
macro "fr_auto" : tactic => `(tactic|
  (constructor <;> (try simp only [St.setJob, St.setGor, St.setStop, St.spawn, St.queued] at *) <;>
    first
    | g_auto
    | (clear i20 i21 i22 i23 i17 i18; g_auto)
    | (clear i20 i21 i22 i23 i17 i18 i19 i8 i9 i10 i11; g_auto)
    | skip))

variable {s s' : St} {tok : Nat → Loc} {cw rdr jc rd jb : Nat → Nat}

theorem fr_call (i : Inv s tok cw rdr jc) (n : Fr s rd jb) (j : Nat) (h : s.job j = .new) :
    ∃ rd' jb', Fr ((s.setJob j .called)) rd' jb' := by
  obtain ⟨i1, i2, i3, i4, i5, i6, i7, i8, i9, i10, i11, i12, i13, i14, i15, i16, i17, i18, i19, i20, i21, i22, i23, i24, i25⟩ := i
  obtain ⟨n1, n2, n3, n4, n5, n6, n7, n8, n9⟩ := n
  refine ⟨rd, jb, ?_⟩; fr_auto

theorem fr_runDraining (i : Inv s tok cw rdr jc) (n : Fr s rd jb) (j : Nat) (h : s.job j = .called) (h1 : s.maxWorkers = -1) :
    ∃ rd' jb', Fr ((s.setJob j .rejected)) rd' jb' := by
  obtain ⟨i1, i2, i3, i4, i5, i6, i7, i8, i9, i10, i11, i12, i13, i14, i15, i16, i17, i18, i19, i20, i21, i22, i23, i24, i25⟩ := i
  obtain ⟨n1, n2, n3, n4, n5, n6, n7, n8, n9⟩ := n
  refine ⟨rd, jb, ?_⟩; fr_auto

theorem fr_runReuse (i : Inv s tok cw rdr jc) (n : Fr s rd jb) (j : Nat) (ws : List Nat) (w : Nat) (h : s.job j = .called) (h1 : s.maxWorkers ≠ -1) (h2 : s.dobby = ws ++ [w]) :
    ∃ rd' jb', Fr (({ s with dobby := ws }.setJob j (.sending w))) rd' jb' := by
  obtain ⟨i1, i2, i3, i4, i5, i6, i7, i8, i9, i10, i11, i12, i13, i14, i15, i16, i17, i18, i19, i20, i21, i22, i23, i24, i25⟩ := i
  obtain ⟨n1, n2, n3, n4, n5, n6, n7, n8, n9⟩ := n
  refine ⟨rd, fun x => if x = w then j else jb x, ?_⟩; fr_auto

theorem fr_runPooled (i : Inv s tok cw rdr jc) (n : Fr s rd jb) (j w : Nat) (p p' : List Nat) (h : s.job j = .called) (h1 : s.maxWorkers ≠ -1) (h2 : s.dobby = []) (h3 : s.workers < s.maxWorkers) (h4 : s.pool = p ++ w :: p') :
    ∃ rd' jb', Fr ((({ s with pool := p ++ p' }.spawn w).setJob j (.sending w))) rd' jb' := by
  obtain ⟨i1, i2, i3, i4, i5, i6, i7, i8, i9, i10, i11, i12, i13, i14, i15, i16, i17, i18, i19, i20, i21, i22, i23, i24, i25⟩ := i
  obtain ⟨n1, n2, n3, n4, n5, n6, n7, n8, n9⟩ := n
  refine ⟨fun x => if x = w then s.nextG else rd x, fun x => if x = w then j else jb x, ?_⟩; fr_auto

theorem fr_runFresh (i : Inv s tok cw rdr jc) (n : Fr s rd jb) (j : Nat) (h : s.job j = .called) (h1 : s.maxWorkers ≠ -1) (h2 : s.dobby = []) (h3 : s.workers < s.maxWorkers) :
    ∃ rd' jb', Fr ((({ s with nextW := s.nextW + 1 }.spawn s.nextW).setJob j (.sending s.nextW))) rd' jb' := by
  obtain ⟨i1, i2, i3, i4, i5, i6, i7, i8, i9, i10, i11, i12, i13, i14, i15, i16, i17, i18, i19, i20, i21, i22, i23, i24, i25⟩ := i
  obtain ⟨n1, n2, n3, n4, n5, n6, n7, n8, n9⟩ := n
  refine ⟨fun x => if x = s.nextW then s.nextG else rd x, fun x => if x = s.nextW then j else jb x, ?_⟩; fr_auto

theorem fr_runFull (i : Inv s tok cw rdr jc) (n : Fr s rd jb) (j : Nat) (h : s.job j = .called) (h1 : s.maxWorkers ≠ -1) (h2 : s.dobby = []) (h3 : ¬ s.workers < s.maxWorkers) :
    ∃ rd' jb', Fr ((s.setJob j .rejected)) rd' jb' := by
  obtain ⟨i1, i2, i3, i4, i5, i6, i7, i8, i9, i10, i11, i12, i13, i14, i15, i16, i17, i18, i19, i20, i21, i22, i23, i24, i25⟩ := i
  obtain ⟨n1, n2, n3, n4, n5, n6, n7, n8, n9⟩ := n
  refine ⟨rd, jb, ?_⟩; fr_auto

theorem fr_send (i : Inv s tok cw rdr jc) (n : Fr s rd jb) (j w c : Nat) (h : s.job j = .sending w) (h1 : s.ch w = some c) (h2 : s.closed c = false) (h3 : s.buf c = none) :
    ∃ rd' jb', Fr (({ s with buf := fun x => if x = c then some j else s.buf x }.setJob j .accepted)) rd' jb' := by
  obtain ⟨i1, i2, i3, i4, i5, i6, i7, i8, i9, i10, i11, i12, i13, i14, i15, i16, i17, i18, i19, i20, i21, i22, i23, i24, i25⟩ := i
  obtain ⟨n1, n2, n3, n4, n5, n6, n7, n8, n9⟩ := n
  refine ⟨rd, jb, ?_⟩; fr_auto

theorem fr_sendCrash (i : Inv s tok cw rdr jc) (n : Fr s rd jb) (j w c : Nat) (h : s.job j = .sending w) (h1 : s.ch w = some c) (h2 : s.closed c = true) :
    ∃ rd' jb', Fr ({ s with crashed := true }) rd' jb' := by
  obtain ⟨i1, i2, i3, i4, i5, i6, i7, i8, i9, i10, i11, i12, i13, i14, i15, i16, i17, i18, i19, i20, i21, i22, i23, i24, i25⟩ := i
  obtain ⟨n1, n2, n3, n4, n5, n6, n7, n8, n9⟩ := n
  refine ⟨rd, jb, ?_⟩; fr_auto

theorem fr_begin (i : Inv s tok cw rdr jc) (n : Fr s rd jb) (k w : Nat) (h : s.gor k = .start w) :
    ∃ rd' jb', Fr ((s.setGor k (.recv w (s.ch w)))) rd' jb' := by
  obtain ⟨i1, i2, i3, i4, i5, i6, i7, i8, i9, i10, i11, i12, i13, i14, i15, i16, i17, i18, i19, i20, i21, i22, i23, i24, i25⟩ := i
  obtain ⟨n1, n2, n3, n4, n5, n6, n7, n8, n9⟩ := n
  refine ⟨rd, jb, ?_⟩; fr_auto

theorem fr_take (i : Inv s tok cw rdr jc) (n : Fr s rd jb) (k w c j : Nat) (h : s.gor k = .recv w (some c)) (h1 : s.buf c = some j) :
    ∃ rd' jb', Fr (({ s with buf := fun x => if x = c then none else s.buf x, handled := fun i => if i = j then s.handled i + 1 else s.handled i }.setGor k (.handling w c j))) rd' jb' := by
  obtain ⟨i1, i2, i3, i4, i5, i6, i7, i8, i9, i10, i11, i12, i13, i14, i15, i16, i17, i18, i19, i20, i21, i22, i23, i24, i25⟩ := i
  obtain ⟨n1, n2, n3, n4, n5, n6, n7, n8, n9⟩ := n
  refine ⟨rd, jb, ?_⟩; fr_auto

theorem fr_rangeEnd (i : Inv s tok cw rdr jc) (n : Fr s rd jb) (k w c : Nat) (h : s.gor k = .recv w (some c)) (h1 : s.buf c = none) (h2 : s.closed c = true) :
    ∃ rd' jb', Fr ((s.setGor k .exiting)) rd' jb' := by
  obtain ⟨i1, i2, i3, i4, i5, i6, i7, i8, i9, i10, i11, i12, i13, i14, i15, i16, i17, i18, i19, i20, i21, i22, i23, i24, i25⟩ := i
  obtain ⟨n1, n2, n3, n4, n5, n6, n7, n8, n9⟩ := n
  refine ⟨rd, jb, ?_⟩; fr_auto

theorem fr_handled (i : Inv s tok cw rdr jc) (n : Fr s rd jb) (k w c j : Nat) (h : s.gor k = .handling w c j) :
    ∃ rd' jb', Fr ((s.setGor k (.stamp w c))) rd' jb' := by
  obtain ⟨i1, i2, i3, i4, i5, i6, i7, i8, i9, i10, i11, i12, i13, i14, i15, i16, i17, i18, i19, i20, i21, i22, i23, i24, i25⟩ := i
  obtain ⟨n1, n2, n3, n4, n5, n6, n7, n8, n9⟩ := n
  refine ⟨rd, jb, ?_⟩; fr_auto

theorem fr_stamp (i : Inv s tok cw rdr jc) (n : Fr s rd jb) (k w c : Nat) (t : Int) (h : s.gor k = .stamp w c) :
    ∃ rd' jb', Fr (({ s with tt := fun x => if x = w then t else s.tt x }.setGor k (.free w c))) rd' jb' := by
  obtain ⟨i1, i2, i3, i4, i5, i6, i7, i8, i9, i10, i11, i12, i13, i14, i15, i16, i17, i18, i19, i20, i21, i22, i23, i24, i25⟩ := i
  obtain ⟨n1, n2, n3, n4, n5, n6, n7, n8, n9⟩ := n
  refine ⟨rd, jb, ?_⟩; fr_auto

theorem fr_freeDraining (i : Inv s tok cw rdr jc) (n : Fr s rd jb) (k w c : Nat) (h : s.gor k = .free w c) (h1 : s.maxWorkers = -1) :
    ∃ rd' jb', Fr (({ s with workers := s.workers - 1 }.setGor k .dead)) rd' jb' := by
  obtain ⟨i1, i2, i3, i4, i5, i6, i7, i8, i9, i10, i11, i12, i13, i14, i15, i16, i17, i18, i19, i20, i21, i22, i23, i24, i25⟩ := i
  obtain ⟨n1, n2, n3, n4, n5, n6, n7, n8, n9⟩ := n
  refine ⟨rd, jb, ?_⟩; fr_auto

theorem fr_freeBack (i : Inv s tok cw rdr jc) (n : Fr s rd jb) (k w c : Nat) (h : s.gor k = .free w c) (h1 : s.maxWorkers ≠ -1) :
    ∃ rd' jb', Fr (({ s with dobby := s.dobby ++ [w] }.setGor k (.recv w (some c)))) rd' jb' := by
  obtain ⟨i1, i2, i3, i4, i5, i6, i7, i8, i9, i10, i11, i12, i13, i14, i15, i16, i17, i18, i19, i20, i21, i22, i23, i24, i25⟩ := i
  obtain ⟨n1, n2, n3, n4, n5, n6, n7, n8, n9⟩ := n
  refine ⟨rd, jb, ?_⟩; fr_auto

theorem fr_exit (i : Inv s tok cw rdr jc) (n : Fr s rd jb) (k : Nat) (h : s.gor k = .exiting) :
    ∃ rd' jb', Fr (({ s with workers := s.workers - 1 }.setGor k .dead)) rd' jb' := by
  obtain ⟨i1, i2, i3, i4, i5, i6, i7, i8, i9, i10, i11, i12, i13, i14, i15, i16, i17, i18, i19, i20, i21, i22, i23, i24, i25⟩ := i
  obtain ⟨n1, n2, n3, n4, n5, n6, n7, n8, n9⟩ := n
  refine ⟨rd, jb, ?_⟩; fr_auto

theorem fr_tick (i : Inv s tok cw rdr jc) (n : Fr s rd jb) (now : Int) (l : Nat) (h : s.gc = .idle) (h1 : s.maxWorkers ≠ -1) (h2 : cut (s.dobby.map s.tt) now = some l) :
    ∃ rd' jb', Fr ({ s with dobby := s.dobby.drop l, gc := .closing (s.dobby.take l) }) rd' jb' := by
  obtain ⟨i1, i2, i3, i4, i5, i6, i7, i8, i9, i10, i11, i12, i13, i14, i15, i16, i17, i18, i19, i20, i21, i22, i23, i24, i25⟩ := i
  obtain ⟨n1, n2, n3, n4, n5, n6, n7, n8, n9⟩ := n
  have hsplit : ∀ x, x ∈ s.dobby ↔ x ∈ s.dobby.take l ∨ x ∈ s.dobby.drop l := fun x => by
    conv_lhs => rw [← List.take_append_drop l s.dobby, List.mem_append]
  generalize s.dobby.take l = d1 at *
  generalize s.dobby.drop l = d2 at *
  clear h2
  refine ⟨rd, jb, ?_⟩; fr_auto

theorem fr_tickCrash (i : Inv s tok cw rdr jc) (n : Fr s rd jb) (now : Int) (h : s.gc = .idle) (h1 : s.maxWorkers ≠ -1) (h2 : cut (s.dobby.map s.tt) now = none) :
    ∃ rd' jb', Fr ({ s with crashed := true }) rd' jb' := by
  obtain ⟨i1, i2, i3, i4, i5, i6, i7, i8, i9, i10, i11, i12, i13, i14, i15, i16, i17, i18, i19, i20, i21, i22, i23, i24, i25⟩ := i
  obtain ⟨n1, n2, n3, n4, n5, n6, n7, n8, n9⟩ := n
  refine ⟨rd, jb, ?_⟩; fr_auto

theorem fr_tickDraining (i : Inv s tok cw rdr jc) (n : Fr s rd jb) (cl : Nat → Bool) (h : s.gc = .idle) (h1 : s.maxWorkers = -1) (h2 : closeAll s.ch s.dobby s.closed = some cl) :
    ∃ rd' jb', Fr ({ s with closed := cl, gc := .dead }) rd' jb' := by
  obtain ⟨i1, i2, i3, i4, i5, i6, i7, i8, i9, i10, i11, i12, i13, i14, i15, i16, i17, i18, i19, i20, i21, i22, i23, i24, i25⟩ := i
  obtain ⟨n1, n2, n3, n4, n5, n6, n7, n8, n9⟩ := n
  rw [i24, h] at h1; cases h1

theorem fr_tickDrainingCrash (i : Inv s tok cw rdr jc) (n : Fr s rd jb)  (h : s.gc = .idle) (h1 : s.maxWorkers = -1) (h2 : closeAll s.ch s.dobby s.closed = none) :
    ∃ rd' jb', Fr ({ s with crashed := true }) rd' jb' := by
  obtain ⟨i1, i2, i3, i4, i5, i6, i7, i8, i9, i10, i11, i12, i13, i14, i15, i16, i17, i18, i19, i20, i21, i22, i23, i24, i25⟩ := i
  obtain ⟨n1, n2, n3, n4, n5, n6, n7, n8, n9⟩ := n
  rw [i24, h] at h1; cases h1

theorem fr_closeOne (i : Inv s tok cw rdr jc) (n : Fr s rd jb) (w : Nat) (ws : List Nat) (c : Nat) (h : s.gc = .closing (w :: ws)) (h1 : s.ch w = some c) (h2 : s.closed c = false) :
    ∃ rd' jb', Fr ({ s with closed := fun x => if x = c then true else s.closed x, gc := .clearing w ws }) rd' jb' := by
  obtain ⟨i1, i2, i3, i4, i5, i6, i7, i8, i9, i10, i11, i12, i13, i14, i15, i16, i17, i18, i19, i20, i21, i22, i23, i24, i25⟩ := i
  obtain ⟨n1, n2, n3, n4, n5, n6, n7, n8, n9⟩ := n
  refine ⟨rd, jb, ?_⟩; fr_auto

theorem fr_closeCrash (i : Inv s tok cw rdr jc) (n : Fr s rd jb) (w : Nat) (ws : List Nat) (h : s.gc = .closing (w :: ws)) (h1 : (∀ c, s.ch w = some c → s.closed c = true)) :
    ∃ rd' jb', Fr ({ s with crashed := true }) rd' jb' := by
  obtain ⟨i1, i2, i3, i4, i5, i6, i7, i8, i9, i10, i11, i12, i13, i14, i15, i16, i17, i18, i19, i20, i21, i22, i23, i24, i25⟩ := i
  obtain ⟨n1, n2, n3, n4, n5, n6, n7, n8, n9⟩ := n
  refine ⟨rd, jb, ?_⟩; fr_auto

theorem fr_clearOne (i : Inv s tok cw rdr jc) (n : Fr s rd jb) (w : Nat) (ws : List Nat) (h : s.gc = .clearing w ws) :
    ∃ rd' jb', Fr ({ s with tt := fun x => if x = w then 0 else s.tt x, ch := fun x => if x = w then none else s.ch x, gc := .putting w ws }) rd' jb' := by
  obtain ⟨i1, i2, i3, i4, i5, i6, i7, i8, i9, i10, i11, i12, i13, i14, i15, i16, i17, i18, i19, i20, i21, i22, i23, i24, i25⟩ := i
  obtain ⟨n1, n2, n3, n4, n5, n6, n7, n8, n9⟩ := n
  refine ⟨rd, jb, ?_⟩; fr_auto

theorem fr_putOne (i : Inv s tok cw rdr jc) (n : Fr s rd jb) (w : Nat) (ws : List Nat) (h : s.gc = .putting w ws) :
    ∃ rd' jb', Fr ({ s with pool := w :: s.pool, gc := .closing ws }) rd' jb' := by
  obtain ⟨i1, i2, i3, i4, i5, i6, i7, i8, i9, i10, i11, i12, i13, i14, i15, i16, i17, i18, i19, i20, i21, i22, i23, i24, i25⟩ := i
  obtain ⟨n1, n2, n3, n4, n5, n6, n7, n8, n9⟩ := n
  refine ⟨rd, jb, ?_⟩; fr_auto

theorem fr_collected (i : Inv s tok cw rdr jc) (n : Fr s rd jb)  (h : s.gc = .closing []) :
    ∃ rd' jb', Fr ({ s with gc := .idle }) rd' jb' := by
  obtain ⟨i1, i2, i3, i4, i5, i6, i7, i8, i9, i10, i11, i12, i13, i14, i15, i16, i17, i18, i19, i20, i21, i22, i23, i24, i25⟩ := i
  obtain ⟨n1, n2, n3, n4, n5, n6, n7, n8, n9⟩ := n
  refine ⟨rd, jb, ?_⟩; fr_auto

theorem fr_poolForget (i : Inv s tok cw rdr jc) (n : Fr s rd jb) (w : Nat) (p p' : List Nat) (h : s.pool = p ++ w :: p') :
    ∃ rd' jb', Fr ({ s with pool := p ++ p' }) rd' jb' := by
  obtain ⟨i1, i2, i3, i4, i5, i6, i7, i8, i9, i10, i11, i12, i13, i14, i15, i16, i17, i18, i19, i20, i21, i22, i23, i24, i25⟩ := i
  obtain ⟨n1, n2, n3, n4, n5, n6, n7, n8, n9⟩ := n
  refine ⟨rd, jb, ?_⟩; fr_auto

theorem fr_stopCall (i : Inv s tok cw rdr jc) (n : Fr s rd jb) (k : Nat) (h : s.stop k = .new) (h1 : s.stopSet = true) :
    ∃ rd' jb', Fr ((s.setStop k .sending)) rd' jb' := by
  obtain ⟨i1, i2, i3, i4, i5, i6, i7, i8, i9, i10, i11, i12, i13, i14, i15, i16, i17, i18, i19, i20, i21, i22, i23, i24, i25⟩ := i
  obtain ⟨n1, n2, n3, n4, n5, n6, n7, n8, n9⟩ := n
  refine ⟨rd, jb, ?_⟩; fr_auto

theorem fr_stopNil (i : Inv s tok cw rdr jc) (n : Fr s rd jb) (k : Nat) (h : s.stop k = .new) (h1 : s.stopSet = false) :
    ∃ rd' jb', Fr ((s.setStop k .returned)) rd' jb' := by
  obtain ⟨i1, i2, i3, i4, i5, i6, i7, i8, i9, i10, i11, i12, i13, i14, i15, i16, i17, i18, i19, i20, i21, i22, i23, i24, i25⟩ := i
  obtain ⟨n1, n2, n3, n4, n5, n6, n7, n8, n9⟩ := n
  refine ⟨rd, jb, ?_⟩; fr_auto

theorem fr_stopSignal (i : Inv s tok cw rdr jc) (n : Fr s rd jb) (k : Nat) (h : s.stop k = .sending) (h1 : s.stopSet = true) (h2 : s.gc = .idle) :
    ∃ rd' jb', Fr (({ s with gc := .stopping }.setStop k .sent)) rd' jb' := by
  obtain ⟨i1, i2, i3, i4, i5, i6, i7, i8, i9, i10, i11, i12, i13, i14, i15, i16, i17, i18, i19, i20, i21, i22, i23, i24, i25⟩ := i
  obtain ⟨n1, n2, n3, n4, n5, n6, n7, n8, n9⟩ := n
  refine ⟨rd, jb, ?_⟩; fr_auto

theorem fr_stopClear (i : Inv s tok cw rdr jc) (n : Fr s rd jb) (k : Nat) (h : s.stop k = .sent) :
    ∃ rd' jb', Fr (({ s with stopSet := false }.setStop k .returned)) rd' jb' := by
  obtain ⟨i1, i2, i3, i4, i5, i6, i7, i8, i9, i10, i11, i12, i13, i14, i15, i16, i17, i18, i19, i20, i21, i22, i23, i24, i25⟩ := i
  obtain ⟨n1, n2, n3, n4, n5, n6, n7, n8, n9⟩ := n
  refine ⟨rd, jb, ?_⟩; fr_auto

theorem fr_stopAll (i : Inv s tok cw rdr jc) (n : Fr s rd jb) (cl : Nat → Bool) (h : s.gc = .stopping) (h1 : closeAll s.ch s.dobby s.closed = some cl) :
    ∃ rd' jb', Fr ({ s with maxWorkers := -1, closed := cl, gc := .dead }) rd' jb' := by
  obtain ⟨i1, i2, i3, i4, i5, i6, i7, i8, i9, i10, i11, i12, i13, i14, i15, i16, i17, i18, i19, i20, i21, i22, i23, i24, i25⟩ := i
  obtain ⟨n1, n2, n3, n4, n5, n6, n7, n8, n9⟩ := n
  obtain ⟨cl', e1, e2⟩ := closeAll_some (ch := s.ch) (cw := cw) (fun w c hc => (i13 w c hc).1) s.dobby s.closed i2 (fun w hw => by
    have hd := (i1 w).1 hw
    exact ⟨(i15 w hd).1, (i15 w hd).2 (by rw [Ne, i24, h]; simp)⟩)
  rw [h1] at e1; cases e1
  have e3 : ∀ c, s.closed c = true → cl c = true := fun c hc => (e2 c).2 (Or.inl hc)
  have e4 : ∀ w ∈ s.dobby, ∀ c, s.ch w = some c → cl c = true := fun w hw c hc => (e2 c).2 (Or.inr ⟨w, hw, hc⟩)
  clear e2 h1
  refine ⟨rd, jb, ?_⟩; fr_auto

theorem fr_stopAllCrash (i : Inv s tok cw rdr jc) (n : Fr s rd jb)  (h : s.gc = .stopping) (h1 : closeAll s.ch s.dobby s.closed = none) :
    ∃ rd' jb', Fr ({ s with crashed := true }) rd' jb' := by
  obtain ⟨i1, i2, i3, i4, i5, i6, i7, i8, i9, i10, i11, i12, i13, i14, i15, i16, i17, i18, i19, i20, i21, i22, i23, i24, i25⟩ := i
  obtain ⟨n1, n2, n3, n4, n5, n6, n7, n8, n9⟩ := n
  refine ⟨rd, jb, ?_⟩; fr_auto

theorem fr_step (i : Inv s tok cw rdr jc) (n : Fr s rd jb) (st : Step s s') : ∃ rd' jb', Fr s' rd' jb' := by
  cases st with
  | call j h => exact fr_call i n j h
  | runDraining j h h1 => exact fr_runDraining i n j h h1
  | runReuse j ws w h h1 h2 => exact fr_runReuse i n j ws w h h1 h2
  | runPooled j w p p' h h1 h2 h3 h4 => exact fr_runPooled i n j w p p' h h1 h2 h3 h4
  | runFresh j h h1 h2 h3 => exact fr_runFresh i n j h h1 h2 h3
  | runFull j h h1 h2 h3 => exact fr_runFull i n j h h1 h2 h3
  | send j w c h h1 h2 h3 => exact fr_send i n j w c h h1 h2 h3
  | sendCrash j w c h h1 h2 => exact fr_sendCrash i n j w c h h1 h2
  | begin k w h => exact fr_begin i n k w h
  | take k w c j h h1 => exact fr_take i n k w c j h h1
  | rangeEnd k w c h h1 h2 => exact fr_rangeEnd i n k w c h h1 h2
  | handled k w c j h => exact fr_handled i n k w c j h
  | stamp k w c t h => exact fr_stamp i n k w c t h
  | freeDraining k w c h h1 => exact fr_freeDraining i n k w c h h1
  | freeBack k w c h h1 => exact fr_freeBack i n k w c h h1
  | exit k h => exact fr_exit i n k h
  | tick now l h h1 h2 => exact fr_tick i n now l h h1 h2
  | tickCrash now h h1 h2 => exact fr_tickCrash i n now h h1 h2
  | tickDraining cl h h1 h2 => exact fr_tickDraining i n cl h h1 h2
  | tickDrainingCrash h h1 h2 => exact fr_tickDrainingCrash i n h h1 h2
  | closeOne w ws c h h1 h2 => exact fr_closeOne i n w ws c h h1 h2
  | closeCrash w ws h h1 => exact fr_closeCrash i n w ws h h1
  | clearOne w ws h => exact fr_clearOne i n w ws h
  | putOne w ws h => exact fr_putOne i n w ws h
  | collected h => exact fr_collected i n h
  | poolForget w p p' h => exact fr_poolForget i n w p p' h
  | stopCall k h h1 => exact fr_stopCall i n k h h1
  | stopNil k h h1 => exact fr_stopNil i n k h h1
  | stopSignal k h h1 h2 => exact fr_stopSignal i n k h h1 h2
  | stopClear k h => exact fr_stopClear i n k h
  | stopAll cl h h1 => exact fr_stopAll i n cl h h1
  | stopAllCrash h h1 => exact fr_stopAllCrash i n h h1

theorem fr_init (mx : Int) (t : Nat → Int) : Fr (init mx 0 t) (fun _ => 0) (fun _ => 0) := by
  constructor <;> simp [init, GorPc.busyOn]

theorem fr_reach {mx : Int} (hm : 0 < mx) (r : Reach mx 0 s) :
    ∃ tok cw rdr jc rd jb, Inv s tok cw rdr jc ∧ Fr s rd jb := by
  induction r with
  | init t => exact ⟨_, _, _, _, _, _, inv_init hm 0 t, fr_init mx t⟩
  | step _ st ih =>
    obtain ⟨tok, cw, rdr, jc, rd, jb, i, n⟩ := ih
    obtain ⟨tok', cw', rdr', jc', i'⟩ := inv_step i st
    obtain ⟨rd', jb', n'⟩ := fr_step i n st
    exact ⟨_, _, _, _, _, _, i', n'⟩

end Verif.GoPool
