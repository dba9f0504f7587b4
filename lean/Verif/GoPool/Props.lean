import Verif.GoPool.Lemmas
/-!
# Properties C48-C53, C80, C81: the goroutine pool
-/
namespace Verif.GoPool
open Verif.Go

variable {s s' : St} {mx : Int} {p : Nat}

/-! ## Exactly once -/

/-- What a state of the pool must satisfy: nothing crashed; a job is handled at most once, and not at all
before its `Run` returned true; a job whose `Run` returned true is handled or waits in an open channel
that a live goroutine reads, whose worker nobody else has. -/
structure ExactlyOnce (s : St) : Prop where
  noCrash : s.crashed = false
  atMostOnce : ∀ j, s.handled j ≤ 1
  onlyAccepted : ∀ j, s.job j ≠ .accepted → s.handled j = 0
  notLost : ∀ j, s.job j = .accepted → s.handled j = 0 → ∃ w c k, s.ch w = some c ∧ s.buf c = some j ∧
    s.closed c = false ∧ (s.gor k = .start w ∨ s.gor k = .recv w (some c)) ∧
    w ∉ s.dobby ∧ w ∉ s.pool ∧ w ∉ s.gc.held ∧ ∀ j', s.job j' ≠ .sending w

theorem exactlyOnce (hm : 0 < mx) (r : Reach mx p s) : ExactlyOnce s := by
  obtain ⟨tok, cw, rdr, jc, i⟩ := inv_reach hm r
  refine ⟨i.ok, i.job3, i.job2, fun j h1 h2 => ?_⟩
  obtain ⟨w, c, k, g1, g2, g3, g4, g5⟩ := accepted_queued i h1 h2
  refine ⟨w, c, k, g1, g2, g3, g4, ?_, ?_, ?_, fun j' h => ?_⟩
  · rw [i.dobby1, g5]; simp
  · intro h; have := i.pool1 w h; rw [g5] at this; cases this
  · rw [i.gc1, g5]; simp
  · have := (i.run j' w).1 h; rw [g5] at this; cases this

/-- From every state the goroutine that reads an accepted job's channel can hand it to the handler. -/
theorem eventually (hm : 0 < mx) (r : Reach mx p s) {j : Nat} (h : s.job j = .accepted) :
    ∃ s', Later s s' ∧ s'.handled j = 1 := by
  obtain ⟨tok, cw, rdr, jc, i⟩ := inv_reach hm r
  by_cases h2 : s.handled j = 0
  · obtain ⟨w, c, k, g1, g2, g3, g4 | g4, g5⟩ := accepted_queued i h h2
    · have l1 : Later s _ := Relation.ReflTransGen.single (Step.begin s k w g4)
      have l2 := l1.tail (.take _ k w c j (by simp [St.setGor, g1]) g2)
      exact ⟨_, l2, by simp [St.setGor, h2]⟩
    · exact ⟨_, .single (.take s k w c j g4 g2), by simp [St.setGor, h2]⟩
  · exact ⟨s, .refl, by have := i.job3 j; omega⟩

/-- A `Run` call that got a worker can send: it does not block. -/
theorem sendable (hm : 0 < mx) (r : Reach mx p s) {j w : Nat} (h : s.job j = .sending w) :
    ∃ s', Step s s' ∧ s'.job j = .accepted := by
  obtain ⟨tok, cw, rdr, jc, i⟩ := inv_reach hm r
  have ht := (i.run j w).1 h
  obtain ⟨h1, h2⟩ := i.active w (by rw [ht]; rfl)
  obtain ⟨c, hc⟩ := Option.ne_none_iff_exists'.1 h1
  refine ⟨_, .send s j w c h hc (h2 c hc) ?_, by simp [St.setJob]⟩
  cases hb : s.buf c with
  | none => rfl
  | some j' =>
    have := i.chan2 c j' hb
    rw [(i.cw1 w c hc).1, ht] at this; cases this

/-- **C48** Without preheated workers, in every schedule, every accepted job is handled at most once and is
never lost, rejected ones never are handled, and no channel is misused. -/
theorem C48_exactly_once (hm : 0 < mx) (r : Reach mx 0 s) : ExactlyOnce s := exactlyOnce hm r

theorem C48_eventually (hm : 0 < mx) (r : Reach mx 0 s) {j : Nat} (h : s.job j = .accepted) :
    ∃ s', Later s s' ∧ s'.handled j = 1 := eventually hm r h

theorem C48_run_returns (hm : 0 < mx) (r : Reach mx 0 s) {j w : Nat} (h : s.job j = .sending w) :
    ∃ s', Step s s' ∧ s'.job j = .accepted := sendable hm r h

/-- Non-vacuity: a job accepted by a new worker whose goroutine has not started. -/
example : ∃ s, Reach 1 0 s ∧ s.job 0 = .accepted ∧ s.handled 0 = 0 := by
  have r0 : Reach 1 0 (init 1 0 (fun _ => 0)) := .init _
  have r1 := r0.step (.call _ 0 rfl)
  have r2 := r1.step (.runFresh _ 0 (by simp [St.setJob]) (by simp [init, St.setJob]) (by simp [init, St.setJob])
    (by simp [init, St.setJob]))
  have r3 := r2.step (.send _ 0 0 0 (by simp [St.setJob, init]) (by simp [St.setJob, St.spawn, init])
    (by simp [St.setJob, St.spawn, init]) (by simp [St.setJob, St.spawn, init]))
  exact ⟨_, r3, by simp [St.setJob], by simp [St.setJob, St.spawn, init]⟩

/-- **C49** The same holds with any number of preheated workers. -/
theorem C49_exactly_once (hm : 0 < mx) (r : Reach mx p s) : ExactlyOnce s := exactlyOnce hm r

theorem C49_eventually (hm : 0 < mx) (r : Reach mx p s) {j : Nat} (h : s.job j = .accepted) :
    ∃ s', Later s s' ∧ s'.handled j = 1 := eventually hm r h

theorem C49_run_returns (hm : 0 < mx) (r : Reach mx p s) {j w : Nat} (h : s.job j = .sending w) :
    ∃ s', Step s s' ∧ s'.job j = .accepted := sendable hm r h

/-- Non-vacuity: a `Run` call that took a preheated worker. -/
example : ∃ s, Reach 1 1 s ∧ s.job 0 = .sending 0 := by
  have r0 : Reach 1 1 (init 1 1 (fun _ => 0)) := .init _
  have r1 := r0.step (.call _ 0 rfl)
  have r2 := r1.step (.runReuse _ 0 [] 0 (by simp [St.setJob]) (by simp [init, St.setJob]) (by simp [init, St.setJob]))
  exact ⟨_, r2, by simp [St.setJob]⟩

/-! ## C50 -/

/-- **C50** (second half) `Workers()` is the number of live worker goroutines. -/
theorem C50_counts (hm : 0 < mx) (r : Reach mx p s) :
    ∃ l : List Nat, l.Nodup ∧ (∀ k, k ∈ l ↔ (s.gor k).live = true) ∧ s.workers = l.length := by
  obtain ⟨l, n⟩ := cnt_reach hm r
  exact ⟨l, n.nodup, n.mem, n.len⟩

/-- The full statement of C50's first half. -/
def C50_full : Prop := ∀ (mx : Int) (p : Nat) (s : St), 0 < mx → Reach mx p s → s.workers ≤ mx

/-- **C50** (first half, partial) The bound holds unless more workers are preheated than allowed. Missing:
`NewTimedPool` accepts `preheat > maxWorkers`. -/
theorem C50_bound_partial (hm : 0 < mx) (hp : (p : Int) ≤ mx) (r : Reach mx p s) : s.workers ≤ mx := by
  obtain ⟨l, n⟩ := cnt_reach hm r
  have := n.le
  rw [Int.max_eq_left hp] at this
  exact this

/-- **C50** What holds in general. -/
theorem C50_bound_max (hm : 0 < mx) (r : Reach mx p s) : s.workers ≤ max mx p := by
  obtain ⟨l, n⟩ := cnt_reach hm r
  exact n.le

/-- **C50** refuted in general: maxWorkers 1, preheat 2. -/
theorem C50_refuted : ¬ C50_full := fun h => by
  have := h 1 2 _ (by decide) (.init (fun _ => 0))
  simp [init] at this

/-- Non-vacuity: the bound is reached. -/
example : ∃ s, Reach 1 1 s ∧ s.workers = 1 := ⟨_, .init (fun _ => 0), by simp [init]⟩

/-! ## C51 -/

/-- **C51** Once stopped, a pool stays stopped and no later `Run` is accepted. -/
theorem C51_rejects (hx : s.maxWorkers = -1) {j : Nat} (hj : s.job j = .new ∨ s.job j = .called) (l : Later s s') :
    s'.maxWorkers = -1 ∧ (s'.job j = .new ∨ s'.job j = .called ∨ s'.job j = .rejected) := by
  induction l with
  | refl => exact ⟨hx, by tauto⟩
  | tail _ st ih =>
    obtain ⟨g1, g2⟩ := ih
    have upd : ∀ (f : Nat → JobPc) i q, (q = JobPc.called ∨ q = .rejected) → (f j = .new ∨ f j = .called ∨ f j = .rejected) →
        ((if j = i then q else f j) = .new ∨ (if j = i then q else f j) = .called ∨ (if j = i then q else f j) = .rejected) :=
      fun f i q hq hf => by
        by_cases h : j = i
        · rw [if_pos h]; exact Or.inr hq
        · rw [if_neg h]; exact hf
    cases st with
    | call i h => exact ⟨g1, upd _ _ _ (by simp) g2⟩
    | runDraining i h h1 => exact ⟨g1, upd _ _ _ (by simp) g2⟩
    | runReuse i ws w h h1 h2 => exact absurd g1 h1
    | runPooled i w p p' h h1 h2 h3 h4 => exact absurd g1 h1
    | runFresh i h h1 h2 h3 => exact absurd g1 h1
    | runFull i h h1 h2 h3 => exact absurd g1 h1
    | send i w c h h1 h2 h3 =>
      have : j ≠ i := by rintro rfl; rcases g2 with g | g | g <;> rw [h] at g <;> cases g
      exact ⟨g1, by simpa [St.setJob, this] using g2⟩
    | stopAll cl h h1 => exact ⟨rfl, g2⟩
    | _ => exact ⟨g1, g2⟩

/-- **C51** Such a `Run` call can return at once. -/
theorem C51_run_returns (hx : s.maxWorkers = -1) {j : Nat} (hj : s.job j = .called) :
    ∃ s', Step s s' ∧ s'.job j = .rejected := ⟨_, .runDraining s j hj hx, by simp [St.setJob]⟩

/-- **C51** In every execution from a stopped state the worker goroutines come to rest. -/
theorem C51_comes_to_rest (hm : 0 < mx) (r : Reach mx p s) (hx : s.maxWorkers = -1) (σ : Nat → St) (h0 : σ 0 = s)
    (hσ : ∀ n, Step (σ n) (σ (n + 1))) : ∃ N, ∀ n, N ≤ n → (σ n).gor = (σ N).gor := by
  have hr : ∀ n, Reach mx p (σ n) ∧ (σ n).maxWorkers = -1 := fun n => by
    induction n with
    | zero => exact h0 ▸ ⟨r, hx⟩
    | succ n ih =>
      obtain ⟨tok, cw, rdr, jc, i⟩ := inv_reach hm ih.1
      exact ⟨ih.1.step (hσ n), (left_step i ih.2 (hσ n)).1⟩
  have hst : ∀ n, ((σ (n + 1)).gor = (σ n).gor ∧ (σ (n + 1)).left = (σ n).left) ∨ (σ (n + 1)).left < (σ n).left := fun n => by
    obtain ⟨tok, cw, rdr, jc, i⟩ := inv_reach hm (hr n).1
    exact (left_step i (hr n).2 (hσ n)).2
  obtain ⟨N, hN⟩ : ∃ N, ∀ n, (σ N).left ≤ (σ n).left := by
    obtain ⟨m, ⟨N, rfl⟩, hmin⟩ := WellFounded.has_min (r := (· < ·)) Nat.lt_wfRel.wf (Set.range fun n => (σ n).left) ⟨_, 0, rfl⟩
    exact ⟨N, fun n => by have := hmin _ ⟨n, rfl⟩; exact Nat.not_lt.1 this⟩
  refine ⟨N, fun n hn => ?_⟩
  have : (σ n).gor = (σ N).gor ∧ (σ n).left = (σ N).left := by
    induction n, hn using Nat.le_induction with
    | base => exact ⟨rfl, rfl⟩
    | succ n hn ih =>
      rcases hst n with h | h
      · exact ⟨h.1.trans ih.1, h.2.trans ih.2⟩
      · have := hN (n + 1); omega
  exact this.1

/-- **C51** When no worker goroutine can move any more, every accepted job has been handled, once. -/
theorem C51_all_handled (hm : 0 < mx) (r : Reach mx p s) (hq : ∀ s', Step s s' → s'.gor = s.gor) {j : Nat}
    (h : s.job j = .accepted) : s.handled j = 1 := by
  obtain ⟨tok, cw, rdr, jc, i⟩ := inv_reach hm r
  exact quiet_handled i hq h

/-- The full statement of C51's last part. -/
def C51_full : Prop := ∀ (mx : Int) (p : Nat) (s : St), 0 < mx → Reach mx p s → s.maxWorkers = -1 → Quiet s → s.workers = 0

/-- **C51** (last part, partial) A stopped pool without preheated workers that has come to rest has no
workers. Missing: preheated workers, for which it is false. -/
theorem C51_no_workers_partial (hm : 0 < mx) (r : Reach mx 0 s) (hx : s.maxWorkers = -1) (q : Quiet s) : s.workers = 0 := by
  obtain ⟨tok, cw, rdr, jc, rd, jb, i, n⟩ := fr_reach hm r
  obtain ⟨l, c⟩ := cnt_reach hm r
  rw [c.len]
  cases l with
  | nil => rfl
  | cons k l =>
    obtain ⟨w, _, h⟩ := quiet_live n q ((c.mem k).1 (List.mem_cons_self ..))
    exact absurd hx h

/-- **C51** refuted for preheated workers: the worker's goroutine finds a nil channel. -/
theorem C51_refuted : ¬ C51_full := fun hf => by
  obtain ⟨s, r, l, hg, hj, hs, _, hset⟩ := lost_reach
  have r1 := r.step (.stopCall s 0 (hs 0) hset)
  have r2 := r1.step (.stopSignal _ 0 (by simp [St.setStop]) hset hg)
  have r3 := r2.step (.stopAll _ s.closed rfl (by simp [St.setStop, l.dobby, closeAll]))
  have l3 : Lost { { (s.setStop 0 .sending) with gc := .stopping }.setStop 0 .sent with
      maxWorkers := -1, closed := s.closed, gc := .dead } :=
    ⟨l.gor, l.dobby, l.workers, Or.inr rfl, l.jobs⟩
  have := hf 1 1 _ (by decide) r3 rfl ⟨fun s' st => (lost_step l3 st).2, fun j => Or.inl (hj j), Or.inr rfl⟩
  rw [l3.workers] at this
  cases this

/-- Non-vacuity: a pool without preheated workers, stopped at once, is at rest. -/
example : ∃ s, Reach 1 0 s ∧ s.maxWorkers = -1 ∧ Quiet s := by
  have r0 : Reach 1 0 (init 1 0 (fun _ => 0)) := .init _
  have r1 := r0.step (.stopCall _ 0 rfl rfl)
  have r2 := r1.step (.stopSignal _ 0 (by simp [St.setStop]) rfl rfl)
  have r3 := r2.step (.stopAll _ (fun _ => false) rfl (by simp [St.setStop, init, closeAll]))
  exact ⟨_, r3, rfl, quiet_empty (fun k => by simp [St.setStop, init]) (fun j => rfl) (Or.inr rfl)⟩

/-! ## C52 -/

/-- **C52** One collection pass over an idle list ordered by last use takes exactly the workers last used
before `now` (the time of the pass less the timeout) and keeps the others, both in their order. -/
theorem C52_exact {now : Int} {l : Nat} (hs : s.dobby.Pairwise (fun a b => s.tt a ≤ s.tt b))
    (h : cut (s.dobby.map s.tt) now = some l) :
    s.dobby.take l = s.dobby.filter (fun w => decide (s.tt w < now)) ∧
      s.dobby.drop l = s.dobby.filter (fun w => decide (now ≤ s.tt w)) := by
  obtain ⟨_, h1, h2⟩ := cut_sorted (List.pairwise_map.2 hs) h
  obtain ⟨e1, e2⟩ := take_filter (fun w => decide (s.tt w < now)) s.dobby l
    (fun i hi hl => by have := h1 i (by simpa using hi) hl; simpa using this)
    (fun i hi hl => by have := h2 i (by simpa using hi) hl; simpa using this)
  refine ⟨e1, e2.trans (List.filter_congr fun w _ => ?_)⟩
  by_cases hw : s.tt w < now
  · have : ¬ now ≤ s.tt w := by omega
    simp [hw, this]
  · have : now ≤ s.tt w := by omega
    simp [hw, this]

/-- **C52** Whatever the idle list, the pass finds a cut, splits the list there and loses no worker. -/
theorem C52_prefix (now : Int) (h : s.gc = .idle) (hx : s.maxWorkers ≠ -1) :
    (∃ l, cut (s.dobby.map s.tt) now = some l ∧
      Step s { s with dobby := s.dobby.drop l, gc := .closing (s.dobby.take l) }) ∧
    ∀ l, cut (s.dobby.map s.tt) now = some l → l ≤ s.dobby.length ∧ s.dobby.take l ++ s.dobby.drop l = s.dobby := by
  obtain ⟨l, hl, hle⟩ := cut_some (s.dobby.map s.tt) now
  refine ⟨⟨l, hl, .tick s now l h hx hl⟩, fun l' h' => ?_⟩
  rw [hl] at h'; cases h'
  exact ⟨by simpa using hle, List.take_append_drop ..⟩

/-- Non-vacuity: an ordered idle list of which two of three are too old. -/
example : cut [1, 2, 5] 3 = some 2 := by simp [cut, cutLoop]

/-! ## C53 -/

/-- The conditions on the arguments of `NewTimedPool`, with the error for each. -/
def conditions (mx : Int) (handlerNil : Bool) (idle gc : Int) : List (Bool × ConfErr) :=
  [(decide (mx > 0), .maxWorkers), (!handlerNil, .handler), (decide (idle > 0), .idleTimeout), (decide (gc > 0), .gcPeriod)]

/-- **C53** A pool is made exactly when all conditions hold; otherwise the error is that of the first one
violated. -/
theorem C53_validates (mx : Int) (hn : Bool) (idle gc preheat : Int) (t : Nat → Int) :
    newTimedPool mx hn idle gc preheat t =
      match (conditions mx hn idle gc).find? (fun c => !c.1) with
      | some c => .error c.2
      | none => .ok (init mx preheat.toNat t) := by
  unfold newTimedPool conditions
  by_cases h1 : mx ≤ 0
  · simp [h1]
  · by_cases h3 : idle ≤ 0 <;> by_cases h4 : gc ≤ 0 <;> cases hn <;>
      simp [h1, h3, h4, not_le.1 h1, not_le.1] <;> simp_all [not_le.1]

/-- The full statement of C53's last part. -/
def C53_full : Prop := ∀ (mx : Int) (hn : Bool) (idle gc preheat : Int) (t : Nat → Int) (s : St),
  newTimedPool mx hn idle gc preheat t = .ok s → s.workers ≤ mx

/-- **C53** (last part, partial) Missing: `preheat > maxWorkers` is not rejected. -/
theorem C53_preheat_partial {mx : Int} {hn : Bool} {idle gc preheat : Int} {t : Nat → Int} {s : St}
    (h : newTimedPool mx hn idle gc preheat t = .ok s) (hp : preheat ≤ mx) : s.workers ≤ mx := by
  unfold newTimedPool at h
  split at h
  · cases h
  · split at h
    · cases h
    · split at h
      · cases h
      · split at h
        · cases h
        · cases h
          simp only [init]
          omega

/-- **C53** refuted: one worker allowed, two preheated. -/
theorem C53_refuted : ¬ C53_full := fun h => by
  have := h 1 false 1 1 2 (fun _ => 0) (init 1 2 (fun _ => 0)) (by simp [newTimedPool])
  simp [init] at this

/-- Non-vacuity: a pool that is made, and one rejected for its third argument. -/
example : newTimedPool 1 false 1 1 1 (fun _ => 0) = .ok (init 1 1 (fun _ => 0)) ∧
    newTimedPool 1 false 0 0 1 (fun _ => 0) = .error .idleTimeout := by simp [newTimedPool]

/-! ## C80 -/

/-- The full statement of C80: when everything has come to rest and the pool is not stopped, a new `Run`
is not rejected. -/
def C80_full : Prop := ∀ (mx : Int) (p : Nat) (s : St) (j : Nat), 0 < mx → Reach mx p s → s.maxWorkers ≠ -1 → Quiet s →
  s.job j = .new → (∃ s' w, Step (s.setJob j .called) s' ∧ s'.job j = .sending w) ∧
    ∀ s', Step (s.setJob j .called) s' → s'.job j ≠ .rejected

/-- **C80** (partial) holds without preheated workers. Missing: preheated workers, for which it is false. -/
theorem C80_accepts_partial (hm : 0 < mx) (r : Reach mx 0 s) (hx : s.maxWorkers ≠ -1) (q : Quiet s) {j : Nat} :
    (∃ s' w, Step (s.setJob j .called) s' ∧ s'.job j = .sending w) ∧
      ∀ s', Step (s.setJob j .called) s' → s'.job j ≠ .rejected := by
  obtain ⟨tok, cw, rdr, jc, rd, jb, i, n⟩ := fr_reach hm r
  obtain ⟨l, c⟩ := cnt_reach hm r
  have hmax : s.maxWorkers = mx := by rcases c.max with h | h <;> [exact h; exact absurd h hx]
  have key : s.dobby = [] → s.workers < s.maxWorkers := fun hd => by
    rw [hmax, c.len]
    cases l with
    | nil => simpa using hm
    | cons k l =>
      obtain ⟨w, hw, _⟩ := quiet_live n q ((c.mem k).1 (List.mem_cons_self ..))
      rw [hd] at hw; cases hw
  constructor
  · rcases List.eq_nil_or_concat s.dobby with hd | ⟨ws, w, hd⟩
    · exact ⟨_, s.nextW, .runFresh _ j (by simp [St.setJob]) hx hd (key hd), by simp [St.setJob]⟩
    · exact ⟨_, w, .runReuse _ j ws w (by simp [St.setJob]) hx (by simpa [St.setJob] using hd), by simp [St.setJob]⟩
  · intro s' st
    have hc : (s.setJob j .called).job j ≠ .rejected := by simp [St.setJob]
    have upd : ∀ i q, q ≠ JobPc.rejected → (if j = i then q else (s.setJob j .called).job j) ≠ .rejected := fun i q hq => by
      split <;> [exact hq; exact hc]
    cases st with
    | call i h => exact upd _ _ (by simp)
    | runDraining i h h1 => exact absurd h1 hx
    | runReuse i ws w h h1 h2 => exact upd _ _ (by simp)
    | runPooled i w p p' h h1 h2 h3 h4 => exact upd _ _ (by simp)
    | runFresh i h h1 h2 h3 => exact upd _ _ (by simp)
    | runFull i h h1 h2 h3 => exact absurd (key h2) h3
    | send i w c h h1 h2 h3 => exact upd _ _ (by simp)
    | _ => exact hc

/-- **C80** refuted for preheated workers: a pool of one preheated worker whose goroutine starts after the
worker was collected never accepts anything again. -/
theorem C80_refuted : ∃ s, Reach 1 1 s ∧ s.maxWorkers ≠ -1 ∧ Quiet s ∧
    ∀ s', Later s s' → ∀ j, s'.job j ≠ .accepted := by
  obtain ⟨s, r, l, hg, hj, hs, hx, _⟩ := lost_reach
  refine ⟨s, r, by rw [hx]; decide, ⟨fun s' st => (lost_step l st).2, fun j => Or.inl (hj j), Or.inl hg⟩, fun s' h j hj' => ?_⟩
  rcases (lost_later l h).jobs j with g | g | g <;> rw [hj'] at g <;> cases g

theorem C80_full_refuted : ¬ C80_full := fun h => by
  obtain ⟨s, r, l, hg, hj, hs, hx, _⟩ := lost_reach
  obtain ⟨⟨s', w, st, h'⟩, _⟩ := h 1 1 s 0 (by decide) r (by rw [hx]; decide)
    ⟨fun s' st => (lost_step l st).2, fun j => Or.inl (hj j), Or.inl hg⟩ (hj 0)
  have l1 := (lost_step l (.call s 0 (hj 0))).1
  rcases (lost_step l1 st).1.jobs 0 with g | g | g <;> rw [h'] at g <;> cases g

/-- Non-vacuity: a new pool without preheated workers is at rest. -/
example : Quiet (init 1 0 (fun _ => 0)) := quiet_empty (fun k => by simp [init]) (fun j => rfl) (Or.inl rfl)

/-! ## C81 -/

/-- The full statement of C81: every `Stop` call can return. -/
def C81_full : Prop := ∀ (mx : Int) (p : Nat) (s : St) (k : Nat), 0 < mx → Reach mx p s → s.stop k ≠ .new →
  ∃ s', Later s s' ∧ s'.stop k = .returned

/-- **C81** (partial) The only `Stop` call can return, whatever the collector is doing. Missing: concurrent
`Stop` calls, for which it is false. -/
theorem C81_stop_returns_partial (hm : 0 < mx) (r : Reach mx p s) {k : Nat} (hk : s.stop k = .sending)
    (ho : ∀ k', k' ≠ k → s.stop k' = .new) : ∃ s', Later s s' ∧ s'.stop k = .returned := by
  have n := sto_reach hm r
  have no : ¬ ∃ k, s.stop k = .sent ∨ s.stop k = .returned := by
    rintro ⟨k', h⟩
    by_cases e : k' = k
    · subst e; rw [hk] at h; simp at h
    · rw [ho k' e] at h; simp at h
  have hset : s.stopSet = true := by
    by_contra hc
    exact no (n.set (by simpa using hc))
  have idle : ∃ s', Later s s' ∧ s'.gc = .idle ∧ s'.stop = s.stop ∧ s'.stopSet = s.stopSet := by
    cases hg : s.gc with
    | idle => exact ⟨s, .refl, hg, rfl, rfl⟩
    | closing ws => exact collector_idle hm ws r hg
    | clearing w ws =>
      have l : Later s _ := (Relation.ReflTransGen.single (Step.clearOne s w ws hg)).tail (.putOne _ w ws rfl)
      obtain ⟨s', l', g⟩ := collector_idle hm ws (r.later l) rfl
      exact ⟨s', l.trans l', g⟩
    | putting w ws =>
      have l : Later s _ := Relation.ReflTransGen.single (Step.putOne s w ws hg)
      obtain ⟨s', l', g⟩ := collector_idle hm ws (r.later l) rfl
      exact ⟨s', l.trans l', g⟩
    | stopping => exact absurd (n.gc (Or.inl hg)) no
    | dead => exact absurd (n.gc (Or.inr hg)) no
  obtain ⟨s', l, g1, g2, g3⟩ := idle
  have l1 := l.tail (.stopSignal s' k (by rw [g2]; exact hk) (by rw [g3]; exact hset) g1)
  exact ⟨_, l1.tail (.stopClear _ k (by simp [St.setStop])), by simp [St.setStop]⟩

/-- **C81** A `Stop` call made after one has returned returns at once. -/
theorem C81_again {k : Nat} (hk : s.stop k = .new) (hs : s.stopSet = false) :
    ∃ s', Step s s' ∧ s'.stop k = .returned := ⟨_, .stopNil s k hk hs, by simp [St.setStop]⟩

/-- **C81** refuted: of two concurrent `Stop` calls one waits for ever. -/
theorem C81_refuted : ¬ C81_full := fun h => by
  have r0 : Reach 1 0 (init 1 0 (fun _ => 0)) := .init _
  have r1 := r0.step (.stopCall _ 0 rfl rfl)
  have r2 := r1.step (.stopCall _ 1 (by simp [St.setStop, init]) rfl)
  have r3 := r2.step (.stopSignal _ 0 (by simp [St.setStop]) rfl rfl)
  have r4 := r3.step (.stopAll _ (fun _ => false) rfl (by simp [St.setStop, init, closeAll]))
  obtain ⟨s', l, hs'⟩ := h 1 0 _ 1 (by decide) r4 (by simp [St.setStop])
  have := (stop_stuck (k := 1) rfl (by simp [St.setStop]) l).2
  rw [hs'] at this; cases this

/-- Non-vacuity: a single `Stop` call waiting. -/
example : ∃ s, Reach 1 0 s ∧ s.stop 0 = .sending ∧ ∀ k', k' ≠ 0 → s.stop k' = .new :=
  ⟨_, (Reach.init (fun _ => 0)).step (.stopCall _ 0 rfl rfl), by simp [St.setStop], fun k' h => by simp [St.setStop, h, init]⟩

end Verif.GoPool
