import Verif.PoolTree.Lemmas
/-!
# C142: trees of jobs, walked by handlers that use their own pool
-/
namespace Verif.PoolTree
open Verif.GoPool

variable {mx : Int} {p : Nat} {sub roots : Nat → List Nat} {t : Sys} {τ : Nat → Sys} {j k n : Nat}

/-- **C142, never twice**: at every moment of every schedule, whenever `Stop` is called, no job was visited twice, and only
jobs of the trees were visited. -/
theorem C142_once (hm : 0 < mx) (hT : Trees sub roots) (r : TReach mx p sub roots t) (j : Nat) :
    t.seen j ≤ 1 ∧ (t.seen j ≠ 0 → In sub roots j) := by
  have c := (inv_reach hm hT r).core
  refine ⟨?_, fun h => c.inside j ?_⟩
  · by_cases h : t.seen j = 0
    · omega
    · have := (c.once j h).1; omega
  · rcases (c.once j h).2 with ⟨g, _⟩ | ⟨g, _⟩ <;> rw [g] <;> simp

/-- **C142, never forgotten**: when nobody has anything left to do, every job was visited once. -/
theorem C142_complete (hm : 0 < mx) (hT : Trees sub roots) (r : TReach mx p sub roots t) (q : Quiet t) (h : In sub roots j) :
    t.seen j = 1 := by
  have c := (inv_reach hm hT r).core
  have no : ∀ x, ¬ Has t x := fun x ⟨a, hx⟩ => by rw [q.todo a] at hx; cases hx
  have key : ∀ j, ((∃ a, j ∈ roots a) ∨ ∃ i, j ∈ sub i ∧ t.seen i ≠ 0) → t.seen j ≠ 0 := fun j hj => by
    have h1 : t.pool.job j ≠ .new := (c.issued j hj).resolve_right (no _)
    obtain ⟨q1, q2, q3⟩ := q.jobs j
    cases hs : t.pool.job j with
    | new => exact absurd hs h1
    | called => exact absurd hs q1
    | sending w => exact absurd hs (q2 w)
    | accepted => exact (c.acc j (by rw [q3 hs]; simp)).resolve_left (no _)
    | rejected => exact ((c.rej j hs).resolve_left (no _)).resolve_left (no _)
  have : t.seen j ≠ 0 := by
    induction h with
    | top h => exact key _ (.inl ⟨_, h⟩)
    | sub _ h ih => exact key _ (.inr ⟨_, h, ih⟩)
  exact (c.once j this).1

/-- **C142, every job gets its turn**: in every fair execution every job of the trees is visited some time, exactly once. -/
theorem C142_visited (hm : 0 < mx) (hT : Trees sub roots) (e : TExec mx p sub roots τ) (f : Fair sub τ) (h : In sub roots j) :
    ∃ n, ∀ m, n ≤ m → (τ m).seen j = 1 := by
  have key : ∀ j n, ((∃ a, j ∈ roots a) ∨ ∃ i, j ∈ sub i ∧ (τ n).seen i ≠ 0) → ∃ m, n ≤ m ∧ (τ m).seen j ≠ 0 := fun j n hj => by
    rcases (inv_reach hm hT (e.reach n)).core.issued j hj with g | g
    · exact called_seen hm hT e f g
    · obtain ⟨m, h1, a, rest, h2⟩ := front hm hT e f g
      obtain ⟨m1, h3, h4⟩ := run_moves hm hT e f h2
      obtain ⟨m2, h5, h6⟩ := called_seen hm hT e f ((inv_reach hm hT (e.reach m1)).core.wait j ⟨a, by rw [h4]; simp⟩)
      exact ⟨m2, by omega, h6⟩
  have : ∃ n, (τ n).seen j ≠ 0 := by
    induction h with
    | top h => obtain ⟨m, _, h⟩ := key _ 0 (.inl ⟨_, h⟩); exact ⟨m, h⟩
    | sub _ h ih => obtain ⟨n, hn⟩ := ih; obtain ⟨m, _, h⟩ := key _ n (.inr ⟨_, h, hn⟩); exact ⟨m, h⟩
  obtain ⟨n, hn⟩ := this
  refine ⟨n, fun m hm' => ((inv_reach hm hT (e.reach m)).core.once j ?_).1⟩
  have := seen_mono (j := j) e hm'
  omega

/-- **C142, no handler is stuck**: a handler that waits for its own pool returns, and so does every program outside. -/
theorem C142_returns (hm : 0 < mx) (hT : Trees sub roots) (e : TExec mx p sub roots τ) (f : Fair sub τ) :
    (∀ k n w c j, (τ n).pool.gor k = .handling w c j → ∃ m, n ≤ m ∧ ∀ w c j, (τ m).pool.gor k ≠ .handling w c j) ∧
    ∀ a n, ∃ m, n ≤ m ∧ (τ m).todo a = [] := by
  have ends : ∀ a n, ∃ m, n ≤ m ∧ (τ m).todo a = [] := fun a n => pops_all (rest := []) hm hT e f ((τ n).todo a) n (by simp)
  refine ⟨fun k n w c j h => ?_, ends⟩
  by_contra hc
  push Not at hc
  obtain ⟨m, h1, h2⟩ := ends (.worker k) n
  have stay : ∀ m', m ≤ m' → (τ m').todo (.worker k) = [] ∧ (τ m').pool.gor k = (τ m).pool.gor k := fun m' hm' => by
    induction m', hm' using Nat.le_induction with
    | base => exact ⟨h2, rfl⟩
    | succ m' hm' ih =>
      obtain ⟨w1, c1, j1, g1⟩ := hc m' (by omega)
      obtain ⟨w2, c2, j2, g2⟩ := hc (m' + 1) (by omega)
      rcases e.next m' with st | st
      · have := handling_step st g1 g2 ih.1
        exact ⟨this.1, this.2.trans ih.2⟩
      · rw [st]; exact ih
  obtain ⟨m', h3, h4⟩ := f.backs k m fun m' hm' => ⟨hc m' (by omega), (stay m' hm').1⟩
  exact h4 ((stay (m' + 1) (by omega)).2.trans (stay m' h3).2.symm)

/-- **C142, the walk ends**: if there are finitely many jobs, then some time nobody has anything left to do. -/
theorem C142_ends (hm : 0 < mx) (hT : Trees sub roots) (e : TExec mx p sub roots τ) (f : Fair sub τ) (N : Nat)
    (hN : ∀ j, In sub roots j → j < N) : ∃ n, ∀ m, n ≤ m → Quiet (τ m) := by
  have one : ∀ j, ∃ n, ∀ m, n ≤ m → In sub roots j → (τ m).seen j = 1 ∧ ¬ Has (τ m) (.wait j) ∧
      ((τ m).pool.job j = .rejected ∨ (τ m).pool.job j = .accepted ∧ (τ m).pool.handled j = 1) := fun j => by
    by_cases h : In sub roots j
    · obtain ⟨n, hn⟩ := C142_visited hm hT e f h
      have hj : (τ n).pool.job j ≠ .new := by
        rcases ((inv_reach hm hT (e.reach n)).core.once j (by rw [hn n (Nat.le_refl _)]; simp)).2 with ⟨g, _⟩ | ⟨g, _⟩ <;> rw [g] <;> simp
      obtain ⟨m, h1, h2⟩ := wait_over hm hT e f hj
      refine ⟨m, fun m' hm' _ => ⟨hn m' (by omega), h2 m' hm', ?_⟩⟩
      rcases ((inv_reach hm hT (e.reach m')).core.once j (by rw [hn m' (by omega)]; simp)).2 with ⟨g, _⟩ | g
      · exact .inl g
      · exact .inr g
    · exact ⟨0, fun m _ h' => absurd h' h⟩
  have all : ∀ M, ∃ n, ∀ m, n ≤ m → ∀ j, j < M → In sub roots j → (τ m).seen j = 1 ∧ ¬ Has (τ m) (.wait j) ∧
      ((τ m).pool.job j = .rejected ∨ (τ m).pool.job j = .accepted ∧ (τ m).pool.handled j = 1) := fun M => by
    induction M with
    | zero => exact ⟨0, fun m _ j h => absurd h (by omega)⟩
    | succ M ih =>
      obtain ⟨n, hn⟩ := ih
      obtain ⟨n', hn'⟩ := one M
      refine ⟨max n n', fun m hm' j hj hi => ?_⟩
      by_cases e : j = M
      · subst e; exact hn' m (by omega) hi
      · exact hn m (by omega) j (by omega) hi
  obtain ⟨n, hn⟩ := all N
  refine ⟨n, fun m hm' => ⟨fun a => ?_, fun j => ?_⟩⟩
  · have c := (inv_reach hm hT (e.reach m)).core
    by_contra hc
    obtain ⟨x, hx⟩ := List.exists_mem_of_ne_nil _ hc
    have hh : Has (τ m) x := ⟨a, hx⟩
    cases x with
    | run j =>
      obtain ⟨h1, h2⟩ := c.run j hh
      rcases (hn m hm' j (hN j h2) h2).2.2 with g | ⟨g, _⟩ <;> rw [h1] at g <;> cases g
    | wait j =>
      have h2 := c.inside j (c.wait j hh)
      exact (hn m hm' j (hN j h2) h2).2.1 hh
    | visit j =>
      have h2 := c.inside j (by rcases (c.visit j hh).2 with ⟨g, _⟩ | ⟨g, _⟩ <;> rw [g] <;> simp)
      have := (hn m hm' j (hN j h2) h2).1
      rw [(c.visit j hh).1] at this; cases this
  · by_cases h : (τ m).pool.job j = .new
    · rw [h]; simp
    · have h2 := (inv_reach hm hT (e.reach m)).core.inside j h
      rcases (hn m hm' j (hN j h2) h2).2.2 with g | ⟨g, g'⟩
      · rw [g]; simp
      · rw [g]; simp [g']

/-! ## A case: job 0 with child 1, a pool with one worker -/

def exSub : Nat → List Nat := fun i => if i = 0 then [1] else []
def exRoots : Nat → List Nat := fun a => if a = 0 then [0] else []

theorem exTrees : Trees exSub exRoots where
  subs := fun i => by unfold exSub; split <;> simp
  parent := fun i i' j h h' => by
    unfold exSub at h h'
    split at h <;> split at h' <;> simp_all
  tops := fun i => by unfold exRoots; split <;> simp
  top := fun i i' j h h' => by
    unfold exRoots at h h'
    split at h <;> split at h' <;> simp_all
  apart := fun a i j h h' => by
    unfold exRoots at h
    unfold exSub at h'
    split at h <;> split at h' <;> simp_all
  deep := by
    refine Subrelation.wf (r := InvImage (· < ·) fun x => 1 - x) (fun {c i} h => ?_) (InvImage.wf _ Nat.lt_wfRel.wf)
    show 1 - c < 1 - i
    unfold exSub at h
    split at h <;> simp_all

/-- What there is to know of a state of this walk. -/
structure View (t : Sys) (j0 j1 : JobPc) (g : GorPc) (b : Option Nat) (db : List Nat) (n : Nat) (o w : List Item) : Prop where
  mx : t.pool.maxWorkers = 1
  workers : t.pool.workers = n
  dobby : t.pool.dobby = db
  ch : n = 1 → t.pool.ch 0 = some 0
  buf : t.pool.buf 0 = b
  closed : t.pool.closed 0 = false
  next : t.pool.nextW = n ∧ t.pool.nextC = n ∧ t.pool.nextG = n
  job0 : t.pool.job 0 = j0
  job1 : t.pool.job 1 = j1
  jobs : ∀ i, i ≠ 0 → i ≠ 1 → t.pool.job i = .new
  gor0 : t.pool.gor 0 = g
  gors : ∀ k, k ≠ 0 → t.pool.gor k = .unborn
  out : t.todo (.outside 0) = o
  wrk : t.todo (.worker 0) = w
  rest : ∀ a, a ≠ .outside 0 → a ≠ .worker 0 → t.todo a = []

local macro "ex_view" : tactic => `(tactic| (intros; simp_all [Sys.set, St.setJob, St.setGor, St.spawn, exSub]))
local macro "ex_jobs" : tactic => `(tactic| (intro j h; by_cases e0 : j = 0 <;> by_cases e1 : j = 1 <;> simp_all [St.setJob, St.setGor, St.spawn]))
local macro "ex_gors" : tactic => `(tactic| (intro k w c j; by_cases e0 : k = 0 <;> simp_all [St.setJob, St.setGor, St.spawn]))

theorem exHalf : ∃ t, TReach 1 0 exSub exRoots t ∧ View t .accepted .new (.handling 0 0 0) none [] 1 [] [.visit 0] := by
  have r0 : TReach 1 0 exSub exRoots (start 1 0 (fun _ => 0) exRoots) := .start _
  have v0 : View (start 1 0 (fun _ => 0) exRoots) .new .new .unborn none [] 0 [.run 0] [] := by
    constructor <;> simp [start, init, exRoots]
    intro a h1 h2
    cases a with
    | worker k => rfl
    | outside a => have : a ≠ 0 := by simpa using h1
                   simp [this]
  -- the root is given to `Run`, which starts a worker
  obtain ⟨t1, r1, v1⟩ : ∃ t, TReach 1 0 exSub exRoots t ∧ View t .called .new .unborn none [] 0 [.wait 0] [] :=
    ⟨_, r0.step (.call _ (.outside 0) 0 [] v0.out v0.job0), by clear r0; obtain ⟨⟩ := v0; constructor <;> ex_view⟩
  obtain ⟨t2, r2, v2⟩ : ∃ t, TReach 1 0 exSub exRoots t ∧ View t (.sending 0) .new (.start 0) none [] 1 [.wait 0] [] := by
    have n := v1.next
    refine ⟨_, r1.step (.inner _ _ ⟨.runFresh _ 0 v1.job0 (by rw [v1.mx]; simp) v1.dobby (by rw [v1.mx, v1.workers]; simp), ?_, ?_⟩), ?_⟩ <;>
      clear r0 r1 v0 <;> obtain ⟨⟩ := v1
    · ex_jobs
    · ex_gors
    · constructor <;> ex_view
  obtain ⟨t3, r3, v3⟩ : ∃ t, TReach 1 0 exSub exRoots t ∧ View t .accepted .new (.start 0) (some 0) [] 1 [.wait 0] [] := by
    refine ⟨_, r2.step (.inner _ _ ⟨.send _ 0 0 0 v2.job0 (v2.ch rfl) v2.closed v2.buf, ?_, ?_⟩), ?_⟩ <;>
      clear r0 r1 r2 v0 v1 <;> obtain ⟨⟩ := v2
    · ex_jobs
    · ex_gors
    · constructor <;> ex_view
  obtain ⟨t4, r4, v4⟩ : ∃ t, TReach 1 0 exSub exRoots t ∧ View t .accepted .new (.start 0) (some 0) [] 1 [] [] := by
    refine ⟨_, r3.step (.accepted _ (.outside 0) 0 [] v3.out v3.job0), ?_⟩
    clear r0 r1 r2 r3 v0 v1 v2
    obtain ⟨⟩ := v3
    constructor <;> ex_view
  obtain ⟨t5, r5, v5⟩ : ∃ t, TReach 1 0 exSub exRoots t ∧ View t .accepted .new (.recv 0 (some 0)) (some 0) [] 1 [] [] := by
    refine ⟨_, r4.step (.inner _ _ ⟨.begin _ 0 0 v4.gor0, ?_, ?_⟩), ?_⟩ <;>
      clear r0 r1 r2 r3 r4 v0 v1 v2 v3 <;> obtain ⟨⟩ := v4
    · ex_jobs
    · ex_gors
    · constructor <;> ex_view
  -- the worker has it and gives its child to `Run`, which returns false: the only worker is busy
  obtain ⟨t6, r6, v6⟩ : ∃ t, TReach 1 0 exSub exRoots t ∧ View t .accepted .new (.handling 0 0 0) none [] 1 [] [.visit 0] := by
    refine ⟨_, r5.step (.take _ 0 0 0 0 v5.gor0 v5.buf), ?_⟩
    clear r0 r1 r2 r3 r4 r5 v0 v1 v2 v3 v4
    obtain ⟨⟩ := v5
    constructor <;> ex_view
  exact ⟨t6, r6, v6⟩

theorem exWalk : ∃ t, TReach 1 0 exSub exRoots t ∧ View t .accepted .rejected (.recv 0 (some 0)) none [0] 1 [] [] := by
  obtain ⟨t6, r6, v6⟩ := exHalf
  obtain ⟨t7, r7, v7⟩ : ∃ t, TReach 1 0 exSub exRoots t ∧ View t .accepted .new (.handling 0 0 0) none [] 1 [] [.run 1] := by
    refine ⟨_, r6.step (.visit _ (.worker 0) 0 [] v6.wrk), ?_⟩
    clear r6
    obtain ⟨⟩ := v6
    constructor <;> ex_view
  obtain ⟨t8, r8, v8⟩ : ∃ t, TReach 1 0 exSub exRoots t ∧ View t .accepted .called (.handling 0 0 0) none [] 1 [] [.wait 1] := by
    refine ⟨_, r7.step (.call _ (.worker 0) 1 [] v7.wrk v7.job1), ?_⟩
    clear r6 r7 v6
    obtain ⟨⟩ := v7
    constructor <;> ex_view
  obtain ⟨t9, r9, v9⟩ : ∃ t, TReach 1 0 exSub exRoots t ∧ View t .accepted .rejected (.handling 0 0 0) none [] 1 [] [.wait 1] := by
    refine ⟨_, r8.step (.inner _ _ ⟨.runFull _ 1 v8.job1 (by rw [v8.mx]; simp) v8.dobby (by rw [v8.mx, v8.workers]; simp), ?_, ?_⟩), ?_⟩ <;>
      clear r6 r7 r8 v6 v7 <;> obtain ⟨⟩ := v8
    · ex_jobs
    · ex_gors
    · constructor <;> ex_view
  -- so the worker visits the child itself
  obtain ⟨t10, r10, v10⟩ : ∃ t, TReach 1 0 exSub exRoots t ∧ View t .accepted .rejected (.handling 0 0 0) none [] 1 [] [.visit 1] := by
    refine ⟨_, r9.step (.rejected _ (.worker 0) 1 [] v9.wrk v9.job1), ?_⟩
    clear r6 r7 r8 r9 v6 v7 v8
    obtain ⟨⟩ := v9
    constructor <;> ex_view
  obtain ⟨t11, r11, v11⟩ : ∃ t, TReach 1 0 exSub exRoots t ∧ View t .accepted .rejected (.handling 0 0 0) none [] 1 [] [] := by
    refine ⟨_, r10.step (.visit _ (.worker 0) 1 [] v10.wrk), ?_⟩
    clear r6 r7 r8 r9 r10 v6 v7 v8 v9
    obtain ⟨⟩ := v10
    constructor <;> ex_view
  obtain ⟨t12, r12, v12⟩ : ∃ t, TReach 1 0 exSub exRoots t ∧ View t .accepted .rejected (.stamp 0 0) none [] 1 [] [] := by
    refine ⟨_, r11.step (.back _ 0 0 0 0 v11.gor0 v11.wrk), ?_⟩
    clear r6 r7 r8 r9 r10 r11 v6 v7 v8 v9 v10
    obtain ⟨⟩ := v11
    constructor <;> ex_view
  obtain ⟨t13, r13, v13⟩ : ∃ t, TReach 1 0 exSub exRoots t ∧ View t .accepted .rejected (.free 0 0) none [] 1 [] [] := by
    refine ⟨_, r12.step (.inner _ _ ⟨.stamp _ 0 0 0 7 v12.gor0, ?_, ?_⟩), ?_⟩ <;>
      clear r6 r7 r8 r9 r10 r11 r12 v6 v7 v8 v9 v10 v11 <;> obtain ⟨⟩ := v12
    · ex_jobs
    · ex_gors
    · constructor <;> ex_view
  obtain ⟨t14, r14, v14⟩ : ∃ t, TReach 1 0 exSub exRoots t ∧ View t .accepted .rejected (.recv 0 (some 0)) none [0] 1 [] [] := by
    refine ⟨_, r13.step (.inner _ _ ⟨.freeBack _ 0 0 0 v13.gor0 (by rw [v13.mx]; simp), ?_, ?_⟩), ?_⟩ <;>
      clear r6 r7 r8 r9 r10 r11 r12 r13 v6 v7 v8 v9 v10 v11 v12 <;> obtain ⟨⟩ := v13
    · ex_jobs
    · ex_gors
    · constructor <;> ex_view
  exact ⟨t14, r14, v14⟩

/-- Every reachable state is where some execution stays. -/
theorem exec_of_reach (r : TReach mx p sub roots t) : ∃ (τ : Nat → Sys) (N : Nat), TExec mx p sub roots τ ∧ ∀ m, N ≤ m → τ m = t := by
  induction r with
  | start tt => exact ⟨fun _ => start mx p tt roots, 0, ⟨⟨tt, rfl⟩, fun _ => .inr rfl⟩, fun _ _ => rfl⟩
  | @step s s' _ st ih =>
    obtain ⟨σ, N, e, h⟩ := ih
    refine ⟨fun n => if n ≤ N then σ n else s', N + 1, ⟨by simpa using e.start, fun n => ?_⟩, fun m hm => if_neg (by omega)⟩
    by_cases h1 : n + 1 ≤ N
    · simpa [show n ≤ N by omega, h1] using e.next n
    · by_cases h2 : n ≤ N
      · have : n = N := by omega
        subst this
        left
        simpa [h n (Nat.le_refl _)] using st
      · right; simp [h1, h2]

/-- A fair execution of the walk: the premises of the theorems above can be met, for a job that the pool takes and one that it
does not take. -/
example : ∃ τ, TExec 1 0 exSub exRoots τ ∧ Fair exSub τ ∧ In exSub exRoots 1 ∧ ∃ n, Quiet (τ n) ∧
    (τ n).pool.job 0 = .accepted ∧ (τ n).pool.job 1 = .rejected := by
  obtain ⟨t, r, v⟩ := exWalk
  obtain ⟨τ, N, e, h⟩ := exec_of_reach r
  have nil : ∀ a, t.todo a = [] := fun a => by
    by_cases h1 : a = .outside 0
    · rw [h1]; exact v.out
    · by_cases h2 : a = .worker 0
      · rw [h2]; exact v.wrk
      · exact v.rest a h1 h2
  have job : ∀ j, t.pool.job j = .new ∨ t.pool.job j = .accepted ∨ t.pool.job j = .rejected := fun j => by
    by_cases h1 : j = 0
    · rw [h1, v.job0]; simp
    · by_cases h2 : j = 1
      · rw [h2, v.job1]; simp
      · rw [v.jobs j h1 h2]; simp
  have gor : ∀ k, t.pool.gor k = .unborn ∨ t.pool.gor k = .recv 0 (some 0) := fun k => by
    by_cases h1 : k = 0
    · rw [h1, v.gor0]; simp
    · rw [v.gors k h1]; simp
  have nh : ∀ k w c j, t.pool.gor k ≠ .handling w c j := fun k w c j hk => by
    rcases gor k with g | g <;> rw [g] at hk <;> cases hk
  refine ⟨τ, e, ⟨fun j n hn => ?_, fun k n hn => ?_, fun a n hn => ?_, fun k n hn => ?_⟩,
    .sub (i := 0) (.top (a := 0) (by simp [exRoots])) (by simp [exSub]), N, ?_, ?_, ?_⟩
  · obtain ⟨h1, s', st, h2⟩ := hn (max n N) (Nat.le_max_left ..)
    dsimp only at h1 st h2
    rw [h _ (Nat.le_max_right ..)] at h1 st h2
    rcases PoolFair.job_step (j := j) st with g | ⟨g, _⟩ | ⟨g, _⟩ | ⟨⟨w, g⟩, _⟩
    · exact absurd g h2
    · exact absurd g h1
    all_goals rcases job j with g' | g' | g' <;> rw [g'] at g <;> cases g
  · obtain ⟨h1, s', st, h2⟩ := hn (max n N) (Nat.le_max_left ..)
    dsimp only at h1 st h2
    rw [h _ (Nat.le_max_right ..)] at h1 st h2
    exfalso
    have nc : ∀ j, t.pool.job j ≠ .called := fun j hj => by
      rcases job j with g | g | g <;> rw [g] at hj <;> cases hj
    have no : ∀ k' q, t.pool.gor k' = q → q ≠ .unborn → (∀ w c, q ≠ .recv w (some c)) → False := fun k' q g g1 g2 => by
      rcases gor k' with g' | g' <;> rw [g'] at g
      · exact g1 g.symm
      · exact g2 _ _ g.symm
    cases st with
    | runPooled i' w' p1 p2 a1 a2 a3 a4 a5 => exact nc _ a1
    | runFresh i' a1 a2 a3 a4 => exact nc _ a1
    | «begin» k' w' a1 => exact no _ _ a1 (by simp) (by simp)
    | take k' w' c' j' a1 a2 =>
      rcases gor k' with g | g <;> rw [g] at a1
      · cases a1
      · cases a1
        rw [v.buf] at a2; cases a2
    | rangeEnd k' w' c' a1 a2 a3 =>
      rcases gor k' with g | g <;> rw [g] at a1
      · cases a1
      · cases a1
        rw [v.closed] at a3; cases a3
    | handled k' w' c' j' a1 => exact nh _ _ _ _ a1
    | stamp k' w' c' t a1 => exact no _ _ a1 (by simp) (by simp)
    | freeDraining k' w' c' a1 a2 => exact no _ _ a1 (by simp) (by simp)
    | freeBack k' w' c' a1 a2 => exact no _ _ a1 (by simp) (by simp)
    | exit k' a1 => exact no _ _ a1 (by simp) (by simp)
    | _ => exact h2 rfl
  · obtain ⟨t', st, h2⟩ := hn (max n N) (Nat.le_max_left ..)
    rw [h _ (Nat.le_max_right ..)] at st h2
    exfalso
    cases st with
    | call b j rest h1 _ => rw [nil] at h1; cases h1
    | accepted b j rest h1 _ => rw [nil] at h1; cases h1
    | rejected b j rest h1 _ => rw [nil] at h1; cases h1
    | visit b j rest h1 => rw [nil] at h1; cases h1
    | take k w c j h1 h3 =>
      rcases gor k with g | g <;> rw [g] at h1
      · cases h1
      · cases h1
        rw [v.buf] at h3; cases h3
    | back => exact h2 rfl
    | inner => exact h2 rfl
  · obtain ⟨⟨w, c, j, h1⟩, _⟩ := hn (max n N) (Nat.le_max_left ..)
    rw [h _ (Nat.le_max_right ..)] at h1
    exact absurd h1 (nh k w c j)
  · have q := exactlyOnce (by simp) r.pool
    rw [h N (Nat.le_refl _)]
    refine ⟨nil, fun j => ⟨fun g => ?_, fun w g => ?_, fun g => ?_⟩⟩
    · rcases job j with g' | g' | g' <;> rw [g'] at g <;> cases g
    · rcases job j with g' | g' | g' <;> rw [g'] at g <;> cases g
    · by_contra hc
      have h0 : t.pool.handled j = 0 := by have := q.atMostOnce j; omega
      obtain ⟨w, c, k, a1, a2, a3, a4 | a4, _⟩ := q.notLost j g h0
      · rcases gor k with g' | g' <;> rw [g'] at a4 <;> cases a4
      · rcases gor k with g' | g' <;> rw [g'] at a4 <;> cases a4
        rw [v.buf] at a2; cases a2
  · rw [h N (Nat.le_refl _)]; exact v.job0
  · rw [h N (Nat.le_refl _)]; exact v.job1

end Verif.PoolTree
