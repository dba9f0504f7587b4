import Verif.GoPool.Count
import Mathlib.Algebra.BigOperators.Group.Finset.Basic
import Mathlib.Algebra.Order.BigOperators.Group.Finset
/-!
# How many worker goroutines a stopped pool can leave behind
-/
namespace Verif.GoPool
open Verif.Go

variable {s s' : St} {tok : Nat → Loc} {cw rdr jc : Nat → Nat} {mx : Int} {p : Nat}

/-- The goroutine works for `w`, and no closed channel makes it end. -/
def att (s : St) (w k : Nat) : Prop :=
  match s.gor k with
  | .start w' => w' = w
  | .recv w' none => w' = w
  | .recv w' (some c) => w' = w ∧ s.closed c = false
  | .handling w' _ _ => w' = w
  | .stamp w' _ => w' = w
  | .free w' _ => w' = w
  | _ => False

open Classical in
/-- How many there are. -/
noncomputable def num (s : St) (w : Nat) : Nat := ((Finset.range s.nextG).filter (att s w)).card

/-- The worker is idle in the pool or busy. -/
def Used (s : St) (w : Nat) : Prop :=
  (w ∈ s.dobby ∧ ∀ c, s.ch w = some c → s.closed c = false) ∨ (∃ j, s.job j = .sending w) ∨
  (∃ c j, s.ch w = some c ∧ s.buf c = some j) ∨ (∃ k c, (s.gor k).busyOn = some (w, c)) ∨ w ∈ s.gc.todo

open Classical in
/-- A worker in use has one goroutine, one that was preheated possibly one more. -/
structure Ext (p : Nat) (s : St) : Prop where
  most : ∀ w, num s w ≤ (if Used s w then 1 else 0) + (if w < p then 1 else 0)
  first : ∀ w, w < p → s.ch w = some w → s.closed w = false → num s w ≤ 1
  reads : ∀ w c, w ∈ s.dobby ∨ w ∈ s.gc.todo → s.ch w = some c → s.closed c = false →
    (c = w ∧ w < p) ∨ ∃ k, s.gor k = .recv w (some c)
  over : s.maxWorkers = -1 → ∀ w c, w ∈ s.dobby → s.ch w = some c → s.closed c = true
  nw : p ≤ s.nextW
  nc : p ≤ s.nextC

theorem num_le (hg : s'.nextG = s.nextG) {w : Nat} (h : ∀ k, att s' w k → att s w k) : num s' w ≤ num s w := by
  classical
  unfold num
  rw [hg]
  refine Finset.card_le_card fun k hk => ?_
  simp only [Finset.mem_filter] at hk ⊢
  exact ⟨hk.1, h k hk.2⟩

theorem num_lt (hg : s'.nextG = s.nextG) {w k : Nat} (h : ∀ k, att s' w k → att s w k) (h1 : att s w k) (h2 : ¬ att s' w k)
    (hk : k < s.nextG) : num s' w + 1 ≤ num s w := by
  classical
  unfold num
  rw [hg]
  refine Finset.card_lt_card ⟨fun k hk => ?_, fun hs => ?_⟩
  · simp only [Finset.mem_filter] at hk ⊢
    exact ⟨hk.1, h k hk.2⟩
  · have := hs (Finset.mem_filter.2 ⟨Finset.mem_range.2 hk, h1⟩)
    exact h2 (Finset.mem_filter.1 this).2

theorem num_succ (hg : s'.nextG = s.nextG + 1) {w : Nat} (h : ∀ k, k < s.nextG → att s' w k → att s w k) :
    num s' w ≤ num s w + 1 := by
  classical
  unfold num
  rw [hg, Finset.range_add_one, Finset.filter_insert]
  have : ((Finset.range s.nextG).filter (att s' w)).card ≤ ((Finset.range s.nextG).filter (att s w)).card := by
    refine Finset.card_le_card fun k hk => ?_
    simp only [Finset.mem_filter, Finset.mem_range] at hk ⊢
    exact ⟨hk.1, h k hk.1 hk.2⟩
  split
  · have := Finset.card_insert_le s.nextG ((Finset.range s.nextG).filter (att s' w))
    omega
  · omega

theorem num_succ' (hg : s'.nextG = s.nextG + 1) {w : Nat} (h : ∀ k, k < s.nextG → att s' w k → att s w k)
    (hn : ¬ att s' w s.nextG) : num s' w ≤ num s w := by
  classical
  unfold num
  rw [hg, Finset.range_add_one, Finset.filter_insert, if_neg hn]
  refine Finset.card_le_card fun k hk => ?_
  simp only [Finset.mem_filter, Finset.mem_range] at hk ⊢
  exact ⟨hk.1, h k hk.1 hk.2⟩

theorem ext_mono (x : Ext p s) (hg : s'.nextG = s.nextG) (hatt : ∀ w k, att s' w k → att s w k)
    (hact : ∀ w, Used s w → Used s' w)
    (hb : ∀ w, w < p → s'.ch w = some w → s'.closed w = false → s.ch w = some w ∧ s.closed w = false)
    (hc : ∀ w c, w ∈ s'.dobby ∨ w ∈ s'.gc.todo → s'.ch w = some c → s'.closed c = false →
      (c = w ∧ w < p) ∨ ∃ k, s'.gor k = .recv w (some c))
    (hd : s'.maxWorkers = -1 → ∀ w c, w ∈ s'.dobby → s'.ch w = some c → s'.closed c = true)
    (nw : p ≤ s'.nextW) (nc : p ≤ s'.nextC) : Ext p s' := by
  classical
  refine ⟨fun w => ?_, fun w hw h1 h2 => ?_, hc, hd, nw, nc⟩
  · have h1 := num_le hg (hatt w)
    have h2 := x.most w
    by_cases hu : Used s w
    · have := hact w hu
      simp only [hu, this, if_true] at h2 ⊢
      omega
    · simp only [hu, if_false] at h2
      omega
  · obtain ⟨g1, g2⟩ := hb w hw h1 h2
    exact Nat.le_trans (num_le hg (hatt w)) (x.first w hw g1 g2)

/-- A step that touches neither goroutines, channels nor workers. -/
theorem ext_same (x : Ext p s) (h1 : s'.gor = s.gor) (h2 : s'.closed = s.closed) (h3 : s'.ch = s.ch) (h4 : s'.dobby = s.dobby)
    (h5 : s'.nextG = s.nextG) (h6 : s'.gc.todo = s.gc.todo) (h7 : s'.buf = s.buf) (h8 : ∀ j w, s.job j = .sending w → s'.job j = .sending w)
    (h9 : s'.maxWorkers = s.maxWorkers) (h10 : s'.nextW = s.nextW) (h11 : s'.nextC = s.nextC) : Ext p s' := by
  refine ext_mono x h5 (fun w k => by simp [att, h1, h2]) (fun w hu => ?_) (fun w _ => by simpa [h2, h3] using And.intro)
    (by simpa [h1, h2, h3, h4, h6] using x.reads) (by simpa [h2, h3, h4, h9] using x.over) (by simpa [h10] using x.nw)
    (by simpa [h11] using x.nc)
  rcases hu with hu | ⟨j, hu⟩ | hu | hu | hu
  · exact .inl (by simpa [h2, h3, h4] using hu)
  · exact .inr (.inl ⟨j, h8 j w hu⟩)
  · exact .inr (.inr (.inl (by simpa [h3, h7] using hu)))
  · exact .inr (.inr (.inr (.inl (by simpa [h1] using hu))))
  · exact .inr (.inr (.inr (.inr (by simpa [h6] using hu))))

theorem ext_init (hm : 0 < mx) (t : Nat → Int) : Ext p (init mx p t) := by
  classical
  have hatt : ∀ w k, att (init mx p t) w k → k = w ∧ w < p := by
    intro w k h
    by_cases hk : k < p
    · simp [att, init, hk] at h
      omega
    · simp [att, init, hk] at h
  have hn : ∀ w, num (init mx p t) w ≤ if w < p then 1 else 0 := by
    intro w
    split
    · refine Finset.card_le_one.2 fun a ha b hb => ?_
      rw [Finset.mem_filter] at ha hb
      rw [(hatt w a ha.2).1, (hatt w b hb.2).1]
    · next hw =>
      refine Nat.le_of_eq (Finset.card_eq_zero.2 (Finset.filter_eq_empty_iff.2 fun k _ hk => hw (hatt w k hk).2))
  refine ⟨fun w => Nat.le_trans (hn w) (by omega), fun w hw _ _ => ?_, fun w c h1 h2 _ => ?_, fun h w c h1 h2 => ?_, Nat.le_refl _, Nat.le_refl _⟩
  · have := hn w; rw [if_pos hw] at this; exact this
  · left
    by_cases hw : w < p
    · simp [init, hw] at h2; omega
    · simp [init, hw] at h2
  · simp only [init] at h; omega


theorem att_gor {w k k' : Nat} {q : GorPc} (h : s'.closed = s.closed) (hg : s'.gor = fun i => if i = k then q else s.gor i)
    (hq : att s' w k → att s w k) : att s' w k' → att s w k' := by
  by_cases hk : k' = k
  · subst hk; exact hq
  · simp [att, hg, hk, h]

theorem closeAll_dobby (i : Inv s tok cw rdr jc) (h : s.gc = .stopping) {cl} (h1 : closeAll s.ch s.dobby s.closed = some cl) :
    ∀ c, cl c = true ↔ s.closed c = true ∨ ∃ w ∈ s.dobby, s.ch w = some c := by
  have hx : s.maxWorkers ≠ -1 := fun hx => by have := i.max1.1 hx; rw [h] at this; cases this
  obtain ⟨cl', g1, g2⟩ := closeAll_some (fun w c hc => (i.cw1 w c hc).1) s.dobby s.closed i.dobby2 fun w hw => by
    obtain ⟨g1, g2⟩ := i.idle w ((i.dobby1 w).1 hw)
    exact ⟨g1, g2 hx⟩
  rw [g1] at h1; cases h1
  exact g2

theorem ext_spawn (i : Inv s tok cw rdr jc) (x : Ext p s) {j w : Nat} {pl : List Nat} {n : Nat} (hw : tok w = .pool ∨ tok w = .none)
    (hch : s.job j = .called) (hn : s.nextW ≤ n) (hp : tok w = .pool ∨ p ≤ w) :
    Ext p (({ s with pool := pl, nextW := n }.spawn w).setJob j (.sending w)) := by
  classical
  have nu : ¬ Used s w := by
    rintro (⟨h, _⟩ | ⟨j, h⟩ | ⟨c, j, h, h'⟩ | ⟨k, c, h⟩ | h)
    · rw [i.dobby1] at h; rw [h] at hw; rcases hw with hw | hw <;> cases hw
    · rw [i.run] at h; rw [h] at hw; rcases hw with hw | hw <;> cases hw
    · have := i.chan2 c j h'
      rw [(i.cw1 w c h).1] at this
      rw [this] at hw; rcases hw with hw | hw <;> cases hw
    · have := (i.busy1 k w c h).1
      rw [this] at hw; rcases hw with hw | hw <;> cases hw
    · have : w ∈ s.gc.held := by cases hg : s.gc <;> rw [hg] at h <;> simp [GcPc.todo, GcPc.held] at h ⊢ <;> simp [h]
      rw [i.gc1] at this; rw [this] at hw; rcases hw with hw | hw <;> cases hw
  have ub := i.gfresh s.nextG (Nat.le_refl _)
  have old : ∀ w' k, k < s.nextG → att (({ s with pool := pl, nextW := n }.spawn w).setJob j (.sending w)) w' k → att s w' k := by
    intro w' k hk
    have : k ≠ s.nextG := by omega
    simp [att, St.spawn, St.setJob, this]
  have us : Used (({ s with pool := pl, nextW := n }.spawn w).setJob j (.sending w)) w :=
    .inr (.inl ⟨j, by simp [St.setJob]⟩)
  have uo : ∀ w', w' ≠ w → Used s w' → Used (({ s with pool := pl, nextW := n }.spawn w).setJob j (.sending w)) w' := by
    intro w' hne hu
    rcases hu with ⟨hu, hu'⟩ | ⟨j', hu⟩ | ⟨c, j', hu, hu'⟩ | ⟨k, c, hu⟩ | hu
    · exact .inl ⟨hu, by simpa [St.spawn, St.setJob, hne] using hu'⟩
    · refine .inr (.inl ⟨j', ?_⟩)
      have : j' ≠ j := by rintro rfl; rw [hch] at hu; cases hu
      simpa [St.spawn, St.setJob, this] using hu
    · exact .inr (.inr (.inl ⟨c, j', by simpa [St.spawn, St.setJob, hne] using hu, hu'⟩))
    · refine .inr (.inr (.inr (.inl ⟨k, c, ?_⟩)))
      have : k ≠ s.nextG := by rintro rfl; rw [ub] at hu; cases hu
      simpa [St.spawn, St.setJob, this] using hu
    · exact .inr (.inr (.inr (.inr hu)))
  refine ⟨fun w' => ?_, fun w' hw' h1 h2 => ?_, fun w' c h1 h2 h3 => ?_, fun h1 w' c h2 h3 => ?_, Nat.le_trans x.nw hn, ?_⟩
  · have hm := x.most w'
    by_cases hne : w' = w
    · subst hne
      have := num_succ (s := s) (w := w') (s' := ({ s with pool := pl, nextW := n }.spawn w').setJob j (.sending w')) rfl (old w')
      simp only [nu, us, if_true, if_false] at hm ⊢
      omega
    · have := num_succ' (s := s) (w := w') (s' := ({ s with pool := pl, nextW := n }.spawn w).setJob j (.sending w)) rfl (old w')
        (by simp [att, St.spawn, St.setJob, Ne.symm hne])
      by_cases hu : Used s w'
      · have h' := uo w' hne hu
        simp only [hu, h', if_true] at hm ⊢
        omega
      · simp only [hu, if_false] at hm
        omega
  · have hne : w' ≠ w := by
      rintro rfl
      simp only [St.spawn, St.setJob, if_true, Option.some.injEq] at h1
      have := x.nc
      omega
    have := num_succ' (s := s) (w := w') (s' := ({ s with pool := pl, nextW := n }.spawn w).setJob j (.sending w)) rfl (old w')
      (by simp [att, St.spawn, St.setJob, Ne.symm hne])
    exact Nat.le_trans this (x.first w' hw' (by simpa [St.spawn, St.setJob, hne] using h1) h2)
  · have hne : w' ≠ w := by
      rintro rfl
      rcases h1 with h1 | h1
      · have := (i.dobby1 w').1 h1
        rw [this] at hw; rcases hw with hw | hw <;> cases hw
      · exact nu (.inr (.inr (.inr (.inr h1))))
    have h2' : s.ch w' = some c := by simpa [St.spawn, St.setJob, hne] using h2
    rcases x.reads w' c h1 h2' h3 with g | ⟨k, g⟩
    · exact .inl g
    · refine .inr ⟨k, ?_⟩
      have : k ≠ s.nextG := by rintro rfl; rw [ub] at g; cases g
      simpa [St.spawn, St.setJob, this] using g
  · have hne : w' ≠ w := by
      rintro rfl
      have := (i.dobby1 w').1 h2
      rw [this] at hw; rcases hw with hw | hw <;> cases hw
    exact x.over h1 w' c h2 (by simpa [St.spawn, St.setJob, hne] using h3)
  · have := x.nc
    simp only [St.spawn, St.setJob]
    omega

/-- Closing the channel of a worker in use that somebody reads, or that was preheated and never collected. -/
theorem num_close (x : Ext p s) (i : Inv s tok cw rdr jc) {w c : Nat} (hg : s'.nextG = s.nextG) (h : s.ch w = some c) (h0 : s.closed c = false)
    (hgor : s'.gor = s.gor) (hcl : ∀ x, s.closed x = true → s'.closed x = true) (hc : s'.closed c = true)
    (hr : (c = w ∧ w < p) ∨ ∃ k, s.gor k = .recv w (some c)) : num s' w ≤ if w < p then 1 else 0 := by
  classical
  have sub : ∀ k, att s' w k → att s w k := by
    intro k
    unfold att
    rw [hgor]
    split <;> try exact id
    rintro ⟨g1, g2⟩
    refine ⟨g1, ?_⟩
    by_contra hh
    have := hcl _ (by simpa using hh)
    rw [this] at g2; cases g2
  rcases hr with ⟨rfl, hw⟩ | ⟨k, hk⟩
  · rw [if_pos hw]
    exact Nat.le_trans (num_le hg sub) (x.first c hw h h0)
  · have hlt : k < s.nextG := by
      by_contra hge
      rw [i.gfresh k (by omega)] at hk; cases hk
    have := num_lt hg sub (k := k) (by simp [att, hk, h0]) (by simp [att, hgor, hk, hc]) hlt
    have hm := x.most w
    split at hm <;> omega

theorem ext_step (i : Inv s tok cw rdr jc) (x : Ext p s) (st : Step s s') : Ext p s' := by
  classical
  cases st with
  | call j h =>
    refine ext_same x rfl rfl rfl rfl rfl rfl rfl (fun j' w hj => ?_) rfl rfl rfl
    have : j' ≠ j := by rintro rfl; rw [h] at hj; cases hj
    simpa [St.setJob, this] using hj
  | runDraining j h h1 =>
    refine ext_same x rfl rfl rfl rfl rfl rfl rfl (fun j' w hj => ?_) rfl rfl rfl
    have : j' ≠ j := by rintro rfl; rw [h] at hj; cases hj
    simpa [St.setJob, this] using hj
  | runFull j h h1 h2 h3 =>
    refine ext_same x rfl rfl rfl rfl rfl rfl rfl (fun j' w hj => ?_) rfl rfl rfl
    have : j' ≠ j := by rintro rfl; rw [h] at hj; cases hj
    simpa [St.setJob, this] using hj
  | runReuse j ws w h h1 h2 =>
    refine ext_mono x rfl (fun w k => id) (fun w' hu => ?_) (fun w _ h h' => ⟨h, h'⟩) (fun w' c hd => x.reads w' c ?_)
      (fun hx => absurd hx h1) x.nw x.nc
    · rcases hu with ⟨hu, hu'⟩ | ⟨j', hu⟩ | hu | hu | hu
      · rw [h2] at hu
        rcases List.mem_append.1 hu with hu | hu
        · exact .inl ⟨hu, hu'⟩
        · simp at hu; subst hu
          exact .inr (.inl ⟨j, by simp [St.setJob]⟩)
      · refine .inr (.inl ⟨j', ?_⟩)
        have : j' ≠ j := by rintro rfl; rw [h] at hu; cases hu
        simpa [St.setJob, this] using hu
      · exact .inr (.inr (.inl hu))
      · exact .inr (.inr (.inr (.inl hu)))
      · exact .inr (.inr (.inr (.inr hu)))
    · rcases hd with hd | hd
      · exact .inl (by rw [h2]; exact List.mem_append_left _ hd)
      · exact .inr hd
  | runPooled j w p1 p2 h h1 h2 h3 h4 =>
    have hw : tok w = .pool := i.pool1 w (by rw [h4]; simp)
    exact ext_spawn i x (n := s.nextW) (.inl hw) h (Nat.le_refl _) (.inl hw)
  | runFresh j h h1 h2 h3 =>
    exact ext_spawn i x (pl := s.pool) (.inr (i.fresh _ (Nat.le_refl _))) h (Nat.le_succ _) (.inr x.nw)
  | send j w c h h1 h2 h3 =>
    refine ext_mono x rfl (fun w k => id) (fun w' hu => ?_) (fun w _ h h' => ⟨h, h'⟩) x.reads x.over x.nw x.nc
    rcases hu with hu | ⟨j', hu⟩ | ⟨c', j', hu, hu'⟩ | hu | hu
    · exact .inl hu
    · by_cases hj : j' = j
      · subst hj
        rw [h] at hu; cases hu
        exact .inr (.inr (.inl ⟨c, j', h1, by simp [St.setJob]⟩))
      · exact .inr (.inl ⟨j', by simpa [St.setJob, hj] using hu⟩)
    · refine .inr (.inr (.inl ⟨c', j', hu, ?_⟩))
      have : c' ≠ c := by rintro rfl; rw [h3] at hu'; cases hu'
      simpa [St.setJob, this] using hu'
    · exact .inr (.inr (.inr (.inl hu)))
    · exact .inr (.inr (.inr (.inr hu)))
  | sendCrash j w c h h1 h2 => exact ext_same x rfl rfl rfl rfl rfl rfl rfl (fun _ _ => id) rfl rfl rfl
  | begin k w h =>
    refine ext_mono x rfl (fun w' k' => ?_) (fun w' hu => ?_) (fun w _ h h' => ⟨h, h'⟩) (fun w' c h1 h2 h3 => ?_) x.over x.nw x.nc
    · refine att_gor (k := k) rfl rfl ?_
      simp only [att, St.setGor, if_true, h]
      cases s.ch w with
      | none => exact id
      | some c => exact And.left
    · rcases hu with hu | hu | hu | ⟨k', c, hu⟩ | hu
      · exact .inl hu
      · exact .inr (.inl hu)
      · exact .inr (.inr (.inl hu))
      · refine .inr (.inr (.inr (.inl ⟨k', c, ?_⟩)))
        have : k' ≠ k := by rintro rfl; rw [h] at hu; cases hu
        simpa [St.setGor, this] using hu
      · exact .inr (.inr (.inr (.inr hu)))
    · rcases x.reads w' c h1 h2 h3 with g | ⟨k', g⟩
      · exact .inl g
      · refine .inr ⟨k', ?_⟩
        have : k' ≠ k := by rintro rfl; rw [h] at g; cases g
        simpa [St.setGor, this] using g
  | take k w c j h h1 =>
    have hc := i.chan2 c j h1
    have hw := (i.rcv k w c h).1
    rw [hw] at hc
    have hch := i.chan1 w c j hc
    have hcl := (i.active w (by rw [hc]; rfl)).2 c hch.1
    refine ext_mono x rfl (fun w' k' => ?_) (fun w' hu => ?_) (fun w _ h h' => ⟨h, h'⟩) (fun w' c' h1' h2 h3 => ?_) x.over x.nw x.nc
    · refine att_gor (k := k) rfl rfl ?_
      simp only [att, St.setGor, if_true, h]
      exact fun e => ⟨e, hcl⟩
    · rcases hu with hu | hu | ⟨c', j', hu, hu'⟩ | ⟨k', c', hu⟩ | hu
      · exact .inl hu
      · exact .inr (.inl hu)
      · by_cases he : c' = c
        · subst he
          have := (i.cw1 w' c' hu).1
          rw [hw] at this; subst this
          exact .inr (.inr (.inr (.inl ⟨k, c', by simp [St.setGor, GorPc.busyOn]⟩)))
        · exact .inr (.inr (.inl ⟨c', j', hu, by simpa [St.setGor, he] using hu'⟩))
      · refine .inr (.inr (.inr (.inl ⟨k', c', ?_⟩)))
        have : k' ≠ k := by rintro rfl; rw [h] at hu; cases hu
        simpa [St.setGor, this] using hu
      · exact .inr (.inr (.inr (.inr hu)))
    · rcases x.reads w' c' h1' h2 h3 with g | ⟨k', g⟩
      · exact .inl g
      · refine .inr ⟨k', ?_⟩
        have : k' ≠ k := by
          rintro rfl
          rw [h] at g; cases g
          rcases h1' with h1' | h1'
          · have h1' : w ∈ s.dobby := h1'
            rw [i.dobby1, hc] at h1'; cases h1'
          · have : w ∈ s.gc.held := by
              have h1' : w ∈ s.gc.todo := h1'
              cases hg : s.gc <;> rw [hg] at h1' <;> simp [GcPc.todo, GcPc.held] at h1' ⊢ <;> simp [h1']
            rw [i.gc1, hc] at this; cases this
        simpa [St.setGor, this] using g
  | rangeEnd k w c h h1 h2 =>
    refine ext_mono x rfl (fun w' k' => ?_) (fun w' hu => ?_) (fun w _ h h' => ⟨h, h'⟩) (fun w' c' h1' h2' h3 => ?_) x.over x.nw x.nc
    · refine att_gor (k := k) rfl rfl ?_
      simp [att, St.setGor]
    · rcases hu with hu | hu | hu | ⟨k', c, hu⟩ | hu
      · exact .inl hu
      · exact .inr (.inl hu)
      · exact .inr (.inr (.inl hu))
      · refine .inr (.inr (.inr (.inl ⟨k', c, ?_⟩)))
        have : k' ≠ k := by rintro rfl; rw [h] at hu; cases hu
        simpa [St.setGor, this] using hu
      · exact .inr (.inr (.inr (.inr hu)))
    · rcases x.reads w' c' h1' h2' h3 with g | ⟨k', g⟩
      · exact .inl g
      · refine .inr ⟨k', ?_⟩
        have : k' ≠ k := by
          rintro rfl
          rw [h] at g; cases g
          have h3 : s.closed c = false := h3
          rw [h2] at h3; cases h3
        simpa [St.setGor, this] using g
  | handled k w c j h =>
    refine ext_mono x rfl (fun w' k' => ?_) (fun w' hu => ?_) (fun w _ h h' => ⟨h, h'⟩) (fun w' c' h1' h2 h3 => ?_) x.over x.nw x.nc
    · refine att_gor (k := k) rfl rfl ?_
      simp [att, St.setGor, h]
    · rcases hu with hu | hu | hu | ⟨k', c', hu⟩ | hu
      · exact .inl hu
      · exact .inr (.inl hu)
      · exact .inr (.inr (.inl hu))
      · refine .inr (.inr (.inr (.inl ⟨k', c', ?_⟩)))
        by_cases hk : k' = k
        · subst hk; rw [h] at hu; simpa [St.setGor, GorPc.busyOn] using hu
        · simpa [St.setGor, hk] using hu
      · exact .inr (.inr (.inr (.inr hu)))
    · rcases x.reads w' c' h1' h2 h3 with g | ⟨k', g⟩
      · exact .inl g
      · refine .inr ⟨k', ?_⟩
        have : k' ≠ k := by rintro rfl; rw [h] at g; cases g
        simpa [St.setGor, this] using g
  | stamp k w c t h =>
    refine ext_mono x rfl (fun w' k' => ?_) (fun w' hu => ?_) (fun w _ h h' => ⟨h, h'⟩) (fun w' c' h1' h2 h3 => ?_) x.over x.nw x.nc
    · refine att_gor (k := k) rfl rfl ?_
      simp [att, St.setGor, h]
    · rcases hu with hu | hu | hu | ⟨k', c', hu⟩ | hu
      · exact .inl hu
      · exact .inr (.inl hu)
      · exact .inr (.inr (.inl hu))
      · refine .inr (.inr (.inr (.inl ⟨k', c', ?_⟩)))
        by_cases hk : k' = k
        · subst hk; rw [h] at hu; simpa [St.setGor, GorPc.busyOn] using hu
        · simpa [St.setGor, hk] using hu
      · exact .inr (.inr (.inr (.inr hu)))
    · rcases x.reads w' c' h1' h2 h3 with g | ⟨k', g⟩
      · exact .inl g
      · refine .inr ⟨k', ?_⟩
        have : k' ≠ k := by rintro rfl; rw [h] at g; cases g
        simpa [St.setGor, this] using g
  | freeDraining k w c h h1 =>
    have hlt : k < s.nextG := by
      by_contra hge
      rw [i.gfresh k (by omega)] at h; cases h
    have sub : ∀ w' k', att ({ s with workers := s.workers - 1 }.setGor k .dead) w' k' → att s w' k' := fun w' k' => by
      refine att_gor (k := k) rfl rfl ?_
      simp [att, St.setGor]
    refine ⟨fun w' => ?_, fun w' hw h2 h3 => Nat.le_trans (num_le (s := s) (s' := { s with workers := s.workers - 1 }.setGor k .dead) rfl (sub w')) (x.first w' hw h2 h3), fun w' c' h1' h2 h3 => ?_, x.over, x.nw, x.nc⟩
    · have hm := x.most w'
      by_cases hw : w' = w
      · subst hw
        have := num_lt (s := s) (s' := { s with workers := s.workers - 1 }.setGor k .dead) rfl (sub w') (k := k) (by simp [att, h]) (by simp [att, St.setGor]) hlt
        split at hm <;> omega
      · have := num_le (s := s) (s' := { s with workers := s.workers - 1 }.setGor k .dead) rfl (sub w')
        by_cases hu : Used s w'
        · have hu' : Used ({ s with workers := s.workers - 1 }.setGor k .dead) w' := by
            rcases hu with hu | hu | hu | ⟨k', c', hu⟩ | hu
            · exact .inl hu
            · exact .inr (.inl hu)
            · exact .inr (.inr (.inl hu))
            · refine .inr (.inr (.inr (.inl ⟨k', c', ?_⟩)))
              have : k' ≠ k := by rintro rfl; rw [h] at hu; simp [GorPc.busyOn] at hu; exact hw hu.1.symm
              simpa [St.setGor, this] using hu
            · exact .inr (.inr (.inr (.inr hu)))
          simp only [hu, hu', if_true] at hm ⊢
          omega
        · simp only [hu, if_false] at hm
          omega
    · rcases x.reads w' c' h1' h2 h3 with g | ⟨k', g⟩
      · exact .inl g
      · refine .inr ⟨k', ?_⟩
        have : k' ≠ k := by rintro rfl; rw [h] at g; cases g
        simpa [St.setGor, this] using g
  | freeBack k w c h h1 =>
    obtain ⟨b1, b2⟩ := i.busy1 k w c (by rw [h]; rfl)
    have hcl := (i.active w (by rw [b1]; rfl)).2 c b2
    refine ext_mono x rfl (fun w' k' => ?_) (fun w' hu => ?_) (fun w _ h h' => ⟨h, h'⟩) (fun w' c' h1' h2 h3 => ?_)
      (fun hx => absurd hx h1) x.nw x.nc
    · refine att_gor (k := k) rfl rfl ?_
      simp only [att, St.setGor, if_true, h]
      exact And.left
    · rcases hu with ⟨hu, hu'⟩ | hu | hu | ⟨k', c', hu⟩ | hu
      · exact .inl ⟨List.mem_append_left _ hu, hu'⟩
      · exact .inr (.inl hu)
      · exact .inr (.inr (.inl hu))
      · by_cases hk : k' = k
        · subst hk; rw [h] at hu
          simp [GorPc.busyOn] at hu
          obtain ⟨rfl, rfl⟩ := hu
          refine .inl ⟨List.mem_append_right _ (by simp), fun c' hc' => ?_⟩
          have hc' : s.ch w = some c' := hc'
          rw [b2] at hc'; cases hc'
          exact hcl
        · exact .inr (.inr (.inr (.inl ⟨k', c', by simpa [St.setGor, hk] using hu⟩)))
      · exact .inr (.inr (.inr (.inr hu)))
    · replace h2 : s.ch w' = some c' := h2
      have : w' = w ∨ (w' ∈ s.dobby ∨ w' ∈ s.gc.todo) := by
        rcases h1' with h1' | h1'
        · rcases List.mem_append.1 h1' with h1' | h1'
          · exact .inr (.inl h1')
          · exact .inl (by simpa using h1')
        · exact .inr (.inr h1')
      rcases this with rfl | h1'
      · rw [b2] at h2; cases h2
        exact .inr ⟨k, by simp [St.setGor]⟩
      · rcases x.reads w' c' h1' h2 h3 with g | ⟨k', g⟩
        · exact .inl g
        · refine .inr ⟨k', ?_⟩
          have : k' ≠ k := by rintro rfl; rw [h] at g; cases g
          simpa [St.setGor, this] using g
  | exit k h =>
    refine ext_mono x rfl (fun w' k' => ?_) (fun w' hu => ?_) (fun w _ h h' => ⟨h, h'⟩) (fun w' c' h1' h2' h3 => ?_) x.over x.nw x.nc
    · refine att_gor (k := k) rfl rfl ?_
      simp [att, St.setGor]
    · rcases hu with hu | hu | hu | ⟨k', c, hu⟩ | hu
      · exact .inl hu
      · exact .inr (.inl hu)
      · exact .inr (.inr (.inl hu))
      · refine .inr (.inr (.inr (.inl ⟨k', c, ?_⟩)))
        have : k' ≠ k := by rintro rfl; rw [h] at hu; cases hu
        simpa [St.setGor, this] using hu
      · exact .inr (.inr (.inr (.inr hu)))
    · rcases x.reads w' c' h1' h2' h3 with g | ⟨k', g⟩
      · exact .inl g
      · refine .inr ⟨k', ?_⟩
        have : k' ≠ k := by rintro rfl; rw [h] at g; cases g
        simpa [St.setGor, this] using g
  | tick now l h h1 h2 =>
    refine ext_mono x rfl (fun w k => id) (fun w' hu => ?_) (fun w _ h h' => ⟨h, h'⟩) (fun w' c hd => x.reads w' c ?_)
      (fun hx => absurd hx h1) x.nw x.nc
    · rcases hu with ⟨hu, hu'⟩ | hu | hu | hu | hu
      · rw [← List.take_append_drop l s.dobby] at hu
        rcases List.mem_append.1 hu with hu | hu
        · exact .inr (.inr (.inr (.inr hu)))
        · exact .inl ⟨hu, hu'⟩
      · exact .inr (.inl hu)
      · exact .inr (.inr (.inl hu))
      · exact .inr (.inr (.inr (.inl hu)))
      · rw [h] at hu; simp [GcPc.todo] at hu
    · rcases hd with hd | hd
      · exact .inl (List.mem_of_mem_drop hd)
      · exact .inl (List.mem_of_mem_take hd)
  | tickCrash now h h1 h2 => exact ext_same x rfl rfl rfl rfl rfl rfl rfl (fun _ _ => id) rfl rfl rfl
  | tickDraining cl h h1 h2 => have := i.max1.1 h1; rw [h] at this; cases this
  | tickDrainingCrash h h1 h2 => exact ext_same x rfl rfl rfl rfl rfl rfl rfl (fun _ _ => id) rfl rfl rfl
  | closeOne w ws c h h1 h2 =>
    have tow : w ∈ s.gc.todo := by rw [h]; simp [GcPc.todo]
    have held : w ∈ s.gc.held := by rw [h]; simp [GcPc.held]
    have hnd := i.gc2
    rw [h] at hnd
    simp only [GcPc.held, List.nodup_cons] at hnd
    have mono : ∀ x, s.closed x = true → (if x = c then true else s.closed x) = true := fun x hx => by split <;> simp [hx]
    have sub : ∀ w' k', att { s with closed := fun x => if x = c then true else s.closed x, gc := .clearing w ws } w' k' → att s w' k' := by
      intro w' k'
      unfold att
      dsimp only
      split <;> try exact id
      rintro ⟨g1, g2⟩
      refine ⟨g1, ?_⟩
      split at g2
      · cases g2
      · exact g2
    have uses : ∀ w', w' ≠ w → Used s w' → Used { s with closed := fun x => if x = c then true else s.closed x, gc := .clearing w ws } w' := by
      intro w' hne hu
      rcases hu with ⟨hu, hu'⟩ | hu | hu | hu | hu
      · refine .inl ⟨hu, fun c' hc' => ?_⟩
        have : c' ≠ c := by
          rintro rfl
          exact hne ((i.cw1 w' c' hc').1.symm.trans (i.cw1 w c' h1).1)
        simp only [this, if_false]; exact hu' c' hc'
      · exact .inr (.inl hu)
      · exact .inr (.inr (.inl hu))
      · exact .inr (.inr (.inr (.inl hu)))
      · rw [h] at hu
        simp [GcPc.todo, hne] at hu
        exact .inr (.inr (.inr (.inr (by simpa [GcPc.todo] using hu))))
    refine ⟨fun w' => ?_, fun w' hw g1 g2 => ?_, fun w' c' g1 g2 g3 => ?_, fun hx w' c' g1 g2 => mono c' (x.over hx w' c' g1 g2), x.nw, x.nc⟩
    · by_cases hw : w' = w
      · subst hw
        have := num_close (s := s) (s' := { s with closed := fun x => if x = c then true else s.closed x, gc := .clearing w' ws }) x i rfl h1 h2 rfl mono
          (by simp) (x.reads w' c (.inr tow) h1 h2)
        omega
      · have hm := x.most w'
        have := num_le (s := s) (s' := { s with closed := fun x => if x = c then true else s.closed x, gc := .clearing w ws }) rfl (sub w')
        by_cases hu : Used s w'
        · have hu' := uses w' hw hu
          simp only [hu, hu', if_true] at hm ⊢
          omega
        · simp only [hu, if_false] at hm
          omega
    · refine Nat.le_trans (num_le (s := s) (s' := { s with closed := fun x => if x = c then true else s.closed x, gc := .clearing w ws }) rfl (sub w')) (x.first w' hw g1 ?_)
      by_contra hh
      have := mono w' (by simpa using hh)
      have g2 : (if w' = c then true else s.closed w') = false := g2
      rw [this] at g2; cases g2
    · have g3' : s.closed c' = false := by
        by_contra hh
        have := mono c' (by simpa using hh)
        have g3 : (if c' = c then true else s.closed c') = false := g3
        rw [this] at g3; cases g3
      refine x.reads w' c' ?_ g2 g3'
      rcases g1 with g1 | g1
      · exact .inl g1
      · right; rw [h]; simp [GcPc.todo] at g1 ⊢; exact .inr g1
  | closeCrash w ws h h1 => exact ext_same x rfl rfl rfl rfl rfl rfl rfl (fun _ _ => id) rfl rfl rfl
  | clearOne w ws h =>
    have held : tok w = .gc := (i.gc1 w).1 (by rw [h]; simp [GcPc.held])
    have hnd := i.gc2
    rw [h] at hnd
    simp only [GcPc.held, List.nodup_cons] at hnd
    have nd : w ∉ s.dobby := fun hd => by rw [i.dobby1, held] at hd; cases hd
    refine ext_mono x rfl (fun w k => id) (fun w' hu => ?_) (fun w' _ g1 g2 => ⟨?_, g2⟩) (fun w' c' g1 g2 g3 => ?_)
      (fun hx w' c' g1 g2 => x.over hx w' c' g1 ?_) x.nw x.nc
    · rcases hu with ⟨hu, hu'⟩ | hu | ⟨c', j', hu, hu'⟩ | hu | hu
      · have : w' ≠ w := by rintro rfl; exact nd hu
        exact .inl ⟨hu, by simpa [this] using hu'⟩
      · exact .inr (.inl hu)
      · have : w' ≠ w := by
          rintro rfl
          have := i.chan2 c' j' hu'
          rw [(i.cw1 w' c' hu).1, held] at this; cases this
        exact .inr (.inr (.inl ⟨c', j', by simpa [this] using hu, hu'⟩))
      · exact .inr (.inr (.inr (.inl hu)))
      · rw [h] at hu
        exact .inr (.inr (.inr (.inr hu)))
    · by_cases hw : w' = w
      · simp [hw] at g1
      · simpa [hw] using g1
    · have hw : w' ≠ w := by rintro rfl; simp at g2
      refine x.reads w' c' ?_ (by simpa [hw] using g2) g3
      rcases g1 with g1 | g1
      · exact .inl g1
      · right; rw [h]; exact g1
    · have hw : w' ≠ w := by rintro rfl; simp at g2
      simpa [hw] using g2
  | putOne w ws h => exact ext_same x rfl rfl rfl rfl rfl (by rw [h]; rfl) rfl (fun _ _ => id) rfl rfl rfl
  | collected h => exact ext_same x rfl rfl rfl rfl rfl (by rw [h]; rfl) rfl (fun _ _ => id) rfl rfl rfl
  | poolForget w p1 p2 h => exact ext_same x rfl rfl rfl rfl rfl rfl rfl (fun _ _ => id) rfl rfl rfl
  | stopCall k h h1 => exact ext_same x rfl rfl rfl rfl rfl rfl rfl (fun _ _ => id) rfl rfl rfl
  | stopNil k h h1 => exact ext_same x rfl rfl rfl rfl rfl rfl rfl (fun _ _ => id) rfl rfl rfl
  | stopSignal k h h1 h2 => exact ext_same x rfl rfl rfl rfl rfl (by rw [h2]; rfl) rfl (fun _ _ => id) rfl rfl rfl
  | stopClear k h => exact ext_same x rfl rfl rfl rfl rfl rfl rfl (fun _ _ => id) rfl rfl rfl
  | stopAll cl h h1 =>
    have hcl := closeAll_dobby i h h1
    have hx : s.maxWorkers ≠ -1 := fun hx => by have := i.max1.1 hx; rw [h] at this; cases this
    have mono : ∀ x, s.closed x = true → cl x = true := fun x hx => (hcl x).2 (.inl hx)
    have sub : ∀ w' k', att { s with maxWorkers := -1, closed := cl, gc := .dead } w' k' → att s w' k' := by
      intro w' k'
      unfold att
      dsimp only
      split <;> try exact id
      rintro ⟨g1, g2⟩
      refine ⟨g1, ?_⟩
      by_contra hh
      rw [mono _ (by simpa using hh)] at g2; cases g2
    refine ⟨fun w' => ?_, fun w' hw g1 g2 => ?_, fun w' c' g1 g2 g3 => ?_, fun _ w' c' g1 g2 => (hcl c').2 (.inr ⟨w', g1, g2⟩), x.nw, x.nc⟩
    · by_cases hd : w' ∈ s.dobby
      · obtain ⟨g1, g2⟩ := i.idle w' ((i.dobby1 w').1 hd)
        obtain ⟨c, hc⟩ := Option.ne_none_iff_exists'.1 g1
        have := num_close (s := s) (s' := { s with maxWorkers := -1, closed := cl, gc := .dead }) x i rfl hc (g2 hx c hc) rfl mono
          ((hcl c).2 (.inr ⟨w', hd, hc⟩)) (x.reads w' c (.inl hd) hc (g2 hx c hc))
        omega
      · have hm := x.most w'
        have := num_le (s := s) (s' := { s with maxWorkers := -1, closed := cl, gc := .dead }) rfl (sub w')
        by_cases hu : Used s w'
        · have hu' : Used { s with maxWorkers := -1, closed := cl, gc := .dead } w' := by
            rcases hu with ⟨hu, _⟩ | hu | hu | hu | hu
            · exact absurd hu hd
            · exact .inr (.inl hu)
            · exact .inr (.inr (.inl hu))
            · exact .inr (.inr (.inr (.inl hu)))
            · rw [h] at hu; simp [GcPc.todo] at hu
          simp only [hu, hu', if_true] at hm ⊢
          omega
        · simp only [hu, if_false] at hm
          omega
    · refine Nat.le_trans (num_le (s := s) (s' := { s with maxWorkers := -1, closed := cl, gc := .dead }) rfl (sub w')) (x.first w' hw g1 ?_)
      by_contra hh
      have g2 : cl w' = false := g2
      rw [mono w' (by simpa using hh)] at g2; cases g2
    · have g3 : cl c' = false := g3
      rcases g1 with g1 | g1
      · rw [(hcl c').2 (.inr ⟨w', g1, g2⟩)] at g3; cases g3
      · simp [GcPc.todo] at g1
  | stopAllCrash h h1 => exact ext_same x rfl rfl rfl rfl rfl rfl rfl (fun _ _ => id) rfl rfl rfl

theorem ext_reach (hm : 0 < mx) (r : Reach mx p s) : Ext p s := by
  induction r with
  | init t => exact ext_init hm t
  | step r st ih =>
    obtain ⟨tok, cw, rdr, jc, i⟩ := inv_reach hm r
    exact ext_step i ih st

end Verif.GoPool
