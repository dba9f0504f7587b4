import Verif.GoPool.Fresh
import Verif.GoPool.Count
import Mathlib.Logic.Relation
/-!
# Helper lemmas for the pool's properties
-/
namespace Verif.GoPool
open Verif.Go

variable {s s' : St} {tok : Nat → Loc} {cw rdr jc rd jb : Nat → Nat} {mx : Int} {p : Nat}

/-- `s'` comes later than `s` in some execution. -/
abbrev Later : St → St → Prop := Relation.ReflTransGen Step

theorem Reach.later (r : Reach mx p s) (h : Later s s') : Reach mx p s' := by
  induction h with
  | refl => exact r
  | tail _ st ih => exact ih.step st

/-- Everything that runs has come to rest: no worker goroutine can take a step, no `Run` call is under
way and the collector waits or has ended. -/
structure Quiet (s : St) : Prop where
  gors : ∀ s', Step s s' → s'.gor = s.gor
  jobs : ∀ j, s.job j = .new ∨ s.job j = .accepted ∨ s.job j = .rejected
  gc : s.gc = .idle ∨ s.gc = .dead

theorem upd_ne {α : Type} {f : Nat → α} {k : Nat} {q : α} (h : q ≠ f k) : (fun i => if i = k then q else f i) ≠ f := by
  intro e
  have := congrFun e k
  simp at this
  exact h this

/-- A job accepted and not handled lies in an open channel some live goroutine reads. -/
theorem accepted_queued (i : Inv s tok cw rdr jc) {j : Nat} (h1 : s.job j = .accepted) (h2 : s.handled j = 0) :
    ∃ w c k, s.ch w = some c ∧ s.buf c = some j ∧ s.closed c = false ∧ (s.gor k = .start w ∨ s.gor k = .recv w (some c)) ∧
      tok w = .chan c j := by
  have hb := i.job4 j h1 h2
  have ht := i.chan2 _ _ hb
  obtain ⟨hc, _⟩ := i.chan1 _ _ _ ht
  refine ⟨cw (jc j), jc j, rdr (cw (jc j)), hc, hb, (i.active _ (by rw [ht]; rfl)).2 _ hc, ?_, ht⟩
  have := i.reader (cw (jc j)) (by rw [ht]; rfl) (fun _ => by rw [ht]; simp)
  rw [hc] at this
  exact this

theorem quiet_handled (i : Inv s tok cw rdr jc) (q : ∀ s', Step s s' → s'.gor = s.gor) {j : Nat} (h1 : s.job j = .accepted) :
    s.handled j = 1 := by
  by_contra hne
  have h2 : s.handled j = 0 := by have := i.job3 j; omega
  obtain ⟨w, c, k, hc, hb, hcl, hk | hk, _⟩ := accepted_queued i h1 h2
  · exact upd_ne (by simp [hk]) (q _ (.begin s k w hk))
  · exact upd_ne (by simp [hk]) (q _ (.take s k w c j hk hb))

/-- At rest, the goroutines left are those of idle workers of a pool that is not stopped. -/
theorem quiet_live (n : Fr s rd jb) (q : Quiet s) {k : Nat} (h : (s.gor k).live = true) :
    ∃ w, w ∈ s.dobby ∧ s.maxWorkers ≠ -1 := by
  obtain ⟨q1, q2, q3⟩ := q
  cases hk : s.gor k with
  | unborn => rw [hk] at h; cases h
  | dead => rw [hk] at h; cases h
  | start w => exact absurd (q1 _ (.begin s k w hk)) (upd_ne (by simp [hk]))
  | handling w c j => exact absurd (q1 _ (.handled s k w c j hk)) (upd_ne (by simp [hk]))
  | stamp w c => exact absurd (q1 _ (.stamp s k w c 0 hk)) (upd_ne (by simp [hk]))
  | free w c =>
    by_cases hx : s.maxWorkers = -1
    · exact absurd (q1 _ (.freeDraining s k w c hk hx)) (upd_ne (by simp [hk]))
    · exact absurd (q1 _ (.freeBack s k w c hk hx)) (upd_ne (by simp [hk]))
  | exiting => exact absurd (q1 _ (.exit s k hk)) (upd_ne (by simp [hk]))
  | recv w o =>
    cases o with
    | none => exact absurd hk (n.nonil k w)
    | some c =>
      have hb : s.buf c = none := by
        cases hb : s.buf c with
        | none => rfl
        | some j => exact absurd (q1 _ (.take s k w c j hk hb)) (upd_ne (by simp [hk]))
      have hcl : s.closed c = false := by
        by_contra hcl
        exact absurd (q1 _ (.rangeEnd s k w c hk hb (by simpa using hcl))) (upd_ne (by simp [hk]))
      rcases n.recv k w c hk with h' | ⟨hc, _, hd | hg | hj | hq⟩
      · rw [hcl] at h'; cases h'
      · refine ⟨w, hd, fun hx => ?_⟩
        have := n.stopped hx w hd c hc
        rw [hcl] at this; cases this
      · rcases q3 with g | g <;> rw [g] at hg <;> cases hg
      · rcases q2 (jb w) with g | g | g <;> rw [g] at hj <;> cases hj
      · simp only [St.queued, hc, hb] at hq; cases hq

/-- A pool that has no goroutines and no `Run` calls is at rest. -/
theorem quiet_empty (hg : ∀ k, s.gor k = .unborn) (hj : ∀ j, s.job j = .new) (h : s.gc = .idle ∨ s.gc = .dead) : Quiet s := by
  refine ⟨fun s' st => ?_, fun j => Or.inl (hj j), h⟩
  cases st with
  | runPooled i w p p' h h1 h2 h3 h4 => rw [hj] at h; cases h
  | runFresh i h h1 h2 h3 => rw [hj] at h; cases h
  | begin k w h => rw [hg] at h; cases h
  | take k w c j h h1 => rw [hg] at h; cases h
  | rangeEnd k w c h h1 h2 => rw [hg] at h; cases h
  | handled k w c j h => rw [hg] at h; cases h
  | stamp k w c t h => rw [hg] at h; cases h
  | freeDraining k w c h h1 => rw [hg] at h; cases h
  | freeBack k w c h h1 => rw [hg] at h; cases h
  | exit k h => rw [hg] at h; cases h
  | _ => rfl

/-! ## The binary search -/

theorem cutLoop_sorted {ts : List Int} {now : Int} (hs : ts.Pairwise (· ≤ ·)) {l r x : Nat} (hl : l ≤ r) (hr : r ≤ ts.length)
    (h1 : ∀ i (h : i < ts.length), i < l → ts[i] < now) (h2 : ∀ i (h : i < ts.length), r ≤ i → now ≤ ts[i])
    (e : cutLoop ts now l r = some x) :
    x ≤ ts.length ∧ (∀ i (h : i < ts.length), i < x → ts[i] < now) ∧ ∀ i (h : i < ts.length), x ≤ i → now ≤ ts[i] := by
  rw [List.pairwise_iff_getElem] at hs
  induction hn : r - l using Nat.strongRecOn generalizing l r with
  | _ n ih =>
    rw [cutLoop] at e
    split at e
    · have hm : (l + r) / 2 < ts.length := by omega
      rw [List.getElem?_eq_getElem hm] at e
      dsimp only at e
      split at e
      · rename_i hlt
        refine ih (r - ((l + r) / 2 + 1)) (by omega) (l := (l + r) / 2 + 1) (r := r) (by omega) hr (fun i hi hi' => ?_) h2 e rfl
        rcases Nat.lt_or_ge i ((l + r) / 2) with h | h
        · have := hs i ((l + r) / 2) hi hm h; omega
        · have : i = (l + r) / 2 := by omega
          subst this; exact hlt
      · rename_i hlt
        refine ih ((l + r) / 2 - l) (by omega) (l := l) (r := (l + r) / 2) (by omega) (by omega) h1 (fun i hi hi' => ?_) e rfl
        rcases Nat.lt_or_ge ((l + r) / 2) i with h | h
        · have := hs ((l + r) / 2) i hm hi h; omega
        · have : i = (l + r) / 2 := by omega
          subst this; omega
    · cases e
      exact ⟨by omega, h1, fun i hi hi' => h2 i hi (by omega)⟩

theorem cut_sorted {ts : List Int} {now : Int} (hs : ts.Pairwise (· ≤ ·)) {x : Nat} (e : cut ts now = some x) :
    x ≤ ts.length ∧ (∀ i (h : i < ts.length), i < x → ts[i] < now) ∧ ∀ i (h : i < ts.length), x ≤ i → now ≤ ts[i] := by
  unfold cut at e
  split at e
  · exact cutLoop_sorted hs (Nat.zero_le _) (Nat.le_refl _) (fun i h h' => by omega) (fun i h h' => by omega) e
  · cases e
    exact ⟨Nat.zero_le _, fun i h h' => by omega, fun i h h' => by omega⟩

theorem take_filter {α : Type} (f : α → Bool) (l : List α) (x : Nat)
    (h1 : ∀ i (h : i < l.length), i < x → f l[i] = true) (h2 : ∀ i (h : i < l.length), x ≤ i → f l[i] = false) :
    l.take x = l.filter f ∧ l.drop x = l.filter (fun a => !f a) := by
  have a1 : ∀ a ∈ l.take x, f a = true := fun a ha => by
    obtain ⟨i, hi, rfl⟩ := List.mem_iff_getElem.1 ha
    simp only [List.length_take] at hi
    rw [List.getElem_take]
    exact h1 i (by omega) (by omega)
  have a2 : ∀ a ∈ l.drop x, f a = false := fun a ha => by
    obtain ⟨i, hi, rfl⟩ := List.mem_iff_getElem.1 ha
    simp only [List.length_drop] at hi
    rw [List.getElem_drop]
    exact h2 (x + i) (by omega) (by omega)
  have e1 : (l.take x).filter f = l.take x := List.filter_eq_self.2 a1
  have e2 : (l.drop x).filter f = [] := List.filter_eq_nil_iff.2 (fun a ha => by simp [a2 a ha])
  have e3 : (l.take x).filter (fun a => !f a) = [] := List.filter_eq_nil_iff.2 (fun a ha => by simp [a1 a ha])
  have e4 : (l.drop x).filter (fun a => !f a) = l.drop x := List.filter_eq_self.2 (fun a ha => by simp [a2 a ha])
  constructor
  · conv_rhs => rw [← List.take_append_drop x l, List.filter_append, e1, e2, List.append_nil]
  · conv_rhs => rw [← List.take_append_drop x l, List.filter_append, e3, e4, List.nil_append]

/-! ## A pool whose preheated worker was collected before its goroutine started -/

/-- One goroutine waits on a nil channel for good. -/
structure Lost (s : St) : Prop where
  gor : ∀ k, s.gor k = if k = 0 then .recv 0 none else .unborn
  dobby : s.dobby = []
  workers : s.workers = 1
  max : s.maxWorkers = 1 ∨ s.maxWorkers = -1
  jobs : ∀ j, s.job j = .new ∨ s.job j = .called ∨ s.job j = .rejected

theorem lost_step (n : Lost s) (st : Step s s') : Lost s' ∧ s'.gor = s.gor := by
  obtain ⟨n1, n2, n3, n4, n5⟩ := n
  have hg : ∀ k, s.gor k = .unborn ∨ s.gor k = .recv 0 none := fun k => by rw [n1]; split <;> simp
  have upd : ∀ j q, (q = JobPc.new ∨ q = .called ∨ q = .rejected) →
      ∀ i, (if i = j then q else s.job i) = .new ∨ (if i = j then q else s.job i) = .called ∨
        (if i = j then q else s.job i) = .rejected := fun j q hq i => by
    by_cases h : i = j
    · simpa [h] using hq
    · simpa [h] using n5 i
  cases st with
  | call j h => exact ⟨⟨n1, n2, n3, n4, upd _ _ (by simp)⟩, rfl⟩
  | runDraining j h h1 => exact ⟨⟨n1, n2, n3, n4, upd _ _ (by simp)⟩, rfl⟩
  | runReuse j ws w h h1 h2 => rw [n2] at h2; simp at h2
  | runPooled j w p p' h h1 h2 h3 h4 => omega
  | runFresh j h h1 h2 h3 => omega
  | runFull j h h1 h2 h3 => exact ⟨⟨n1, n2, n3, n4, upd _ _ (by simp)⟩, rfl⟩
  | send j w c h h1 h2 h3 => rcases n5 j with g | g | g <;> rw [h] at g <;> cases g
  | begin k w h => rcases hg k with g | g <;> rw [h] at g <;> cases g
  | take k w c j h h1 => rcases hg k with g | g <;> rw [h] at g <;> cases g
  | rangeEnd k w c h h1 h2 => rcases hg k with g | g <;> rw [h] at g <;> cases g
  | handled k w c j h => rcases hg k with g | g <;> rw [h] at g <;> cases g
  | stamp k w c t h => rcases hg k with g | g <;> rw [h] at g <;> cases g
  | freeDraining k w c h h1 => rcases hg k with g | g <;> rw [h] at g <;> cases g
  | freeBack k w c h h1 => rcases hg k with g | g <;> rw [h] at g <;> cases g
  | exit k h => rcases hg k with g | g <;> rw [h] at g <;> cases g
  | tick now l h h1 h2 => exact ⟨⟨n1, by simp [n2], n3, n4, n5⟩, rfl⟩
  | stopAll cl h h1 => exact ⟨⟨n1, n2, n3, Or.inr rfl, n5⟩, rfl⟩
  | _ => exact ⟨⟨n1, n2, n3, n4, n5⟩, rfl⟩

theorem lost_later (n : Lost s) (h : Later s s') : Lost s' := by
  induction h with
  | refl => exact n
  | tail _ st ih => exact (lost_step ih st).1

/-- timedpool.go:33 against 104-108: the pool with one preheated worker; it is collected before its
goroutine looks at `w.ch`. -/
theorem lost_reach : ∃ s, Reach 1 1 s ∧ Lost s ∧ s.gc = .idle ∧ (∀ j, s.job j = .new) ∧ (∀ k, s.stop k = .new) ∧
    s.maxWorkers = 1 ∧ s.stopSet = true := by
  have r0 : Reach 1 1 (init 1 1 (fun _ => 0)) := .init _
  have r1 := r0.step (.tick _ 1 1 rfl (by simp [init]) (by simp [init, cut, cutLoop]))
  have r2 := r1.step (.closeOne _ 0 [] 0 (by simp [init]) (by simp [init]) (by simp [init]))
  have r3 := r2.step (.clearOne _ 0 [] rfl)
  have r4 := r3.step (.putOne _ 0 [] rfl)
  have r5 := r4.step (.collected _ rfl)
  have r6 := r5.step (.begin _ 0 0 (by simp [init]))
  refine ⟨_, r6, ⟨fun k => ?_, by simp [init, St.setGor], by simp [init, St.setGor], by simp [init, St.setGor],
    fun j => by simp [init, St.setGor]⟩, rfl, fun _ => rfl, fun _ => rfl, rfl, rfl⟩
  simp only [St.setGor, init]
  by_cases hk : k = 0 <;> simp [hk]

/-! ## Stop -/

/-- The collector has been told to stop only by a `Stop` call that got past its send. -/
structure Sto (s : St) : Prop where
  gc : (s.gc = .stopping ∨ s.gc = .dead) → ∃ k, s.stop k = .sent ∨ s.stop k = .returned
  set : s.stopSet = false → ∃ k, s.stop k = .sent ∨ s.stop k = .returned

theorem sto_same (n : Sto s) (h1 : s'.gc ≠ .stopping ∧ s'.gc ≠ .dead ∨ (s'.gc = s.gc)) (h2 : s'.stopSet = s.stopSet)
    (h3 : s'.stop = s.stop) : Sto s' := by
  obtain ⟨n1, n2⟩ := n
  refine ⟨fun h => ?_, fun h => ?_⟩
  · rw [h3]
    rcases h1 with h1 | h1
    · rcases h with h | h
      · exact absurd h h1.1
      · exact absurd h h1.2
    · exact n1 (h1 ▸ h)
  · rw [h3]; exact n2 (h2 ▸ h)

theorem sto_step (i : Inv s tok cw rdr jc) (n : Sto s) (st : Step s s') : Sto s' := by
  have keep : ∀ k q, s.stop k = .new ∨ s.stop k = .sending → (∃ k, s.stop k = .sent ∨ s.stop k = .returned) →
      ∃ k', (if k' = k then q else s.stop k') = .sent ∨ (if k' = k then q else s.stop k') = .returned := by
    rintro k q h ⟨k', hk'⟩
    refine ⟨k', ?_⟩
    have : k' ≠ k := by rintro rfl; rcases h with h | h <;> rw [h] at hk' <;> simp at hk'
    simpa [this] using hk'
  cases st with
  | stopCall k h h1 => exact ⟨fun g => keep k _ (Or.inl h) (n.gc g), fun g => keep k _ (Or.inl h) (n.set g)⟩
  | stopNil k h h1 => exact ⟨fun _ => ⟨k, by simp [St.setStop]⟩, fun _ => ⟨k, by simp [St.setStop]⟩⟩
  | stopSignal k h h1 h2 => exact ⟨fun _ => ⟨k, by simp [St.setStop]⟩, fun _ => ⟨k, by simp [St.setStop]⟩⟩
  | stopClear k h => exact ⟨fun _ => ⟨k, by simp [St.setStop]⟩, fun _ => ⟨k, by simp [St.setStop]⟩⟩
  | stopAll cl h h1 => exact ⟨fun _ => n.gc (Or.inl h), n.set⟩
  | tickDraining cl h h1 h2 => exact absurd (i.max1.1 h1) (by rw [h]; simp)
  | tick now l h h1 h2 => exact sto_same n (Or.inl (by simp)) rfl rfl
  | closeOne w ws c h h1 h2 => exact sto_same n (Or.inl (by simp)) rfl rfl
  | clearOne w ws h => exact sto_same n (Or.inl (by simp)) rfl rfl
  | putOne w ws h => exact sto_same n (Or.inl (by simp)) rfl rfl
  | collected h => exact sto_same n (Or.inl (by simp)) rfl rfl
  | _ => exact sto_same n (Or.inr rfl) rfl rfl

theorem sto_reach (hm : 0 < mx) (r : Reach mx p s) : Sto s := by
  induction r with
  | init t => exact ⟨by simp [init], by simp [init]⟩
  | step r st ih =>
    obtain ⟨tok, cw, rdr, jc, i⟩ := inv_reach hm r
    exact sto_step i ih st

/-- The collector finishes the pass it is in. -/
theorem collector_idle (hm : 0 < mx) (ws : List Nat) : ∀ {s : St}, Reach mx p s → s.gc = .closing ws →
    ∃ s', Later s s' ∧ s'.gc = .idle ∧ s'.stop = s.stop ∧ s'.stopSet = s.stopSet := by
  induction ws with
  | nil => intro s r h; exact ⟨_, .single (.collected s h), rfl, rfl, rfl⟩
  | cons w ws ih =>
    intro s r h
    obtain ⟨tok, cw, rdr, jc, i⟩ := inv_reach hm r
    obtain ⟨h1, h2⟩ := i.gc3 w (by rw [h]; simp [GcPc.todo])
    obtain ⟨c, hc⟩ := Option.ne_none_iff_exists'.1 h1
    have l0 : Later s _ := Relation.ReflTransGen.single (Step.closeOne s w ws c h hc (h2 c hc))
    have l1 := l0.tail (Step.clearOne _ w ws rfl)
    have l2 := l1.tail (Step.putOne _ w ws rfl)
    obtain ⟨s', l, g1, g2, g3⟩ := ih (r.later l2) rfl
    exact ⟨s', l2.trans l, g1, g2, g3⟩

/-- Once the collector has ended, a `Stop` call waiting to signal it waits for good. -/
theorem stop_stuck {k : Nat} (h1 : s.gc = .dead) (h2 : s.stop k = .sending) (h : Later s s') :
    s'.gc = .dead ∧ s'.stop k = .sending := by
  induction h with
  | refl => exact ⟨h1, h2⟩
  | tail _ st ih =>
    obtain ⟨g1, g2⟩ := ih
    cases st <;> simp_all [St.setJob, St.setGor, St.setStop, St.spawn] <;> rintro rfl <;> simp_all

end Verif.GoPool
