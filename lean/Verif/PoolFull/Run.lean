import Verif.PoolFull.Live
/-!
# A pool with one worker that is given one job after the other

An infinite fair execution, for the hypotheses of `C155_progress`.
-/
namespace Verif.PoolFull
open Verif.GoPool Verif.PoolSerial Verif.PoolFair Verif.PoolDrain

/-- The pool in round `t`. -/
def B (t : Nat) (p : JobPc) (d : List Nat) (b : Option Nat) (g : GorPc) (h : Nat) (gc : GcPc) : St where
  maxWorkers := 1
  workers := 1
  dobby := d
  ch := fun w => if w = 0 then some 0 else none
  tt := fun _ => 0
  nextW := 1
  pool := []
  buf := fun c => if c = 0 then b else none
  closed := fun _ => false
  nextC := 1
  job := fun i => if i = t then p else if i < t then .accepted else .new
  gor := fun k => if k = 0 then g else .unborn
  nextG := 1
  gc := gc
  stopSet := true
  stop := fun _ => .new
  handled := fun i => if i = t then h else if i < t then 1 else 0
  crashed := false

/-- After `i` of the nine steps of a round. -/
def mid (t : Nat) : Nat → St
  | 0 => B t .new [0] none (.recv 0 (some 0)) 0 .idle
  | 1 => B t .called [0] none (.recv 0 (some 0)) 0 .idle
  | 2 => B t (.sending 0) [] none (.recv 0 (some 0)) 0 .idle
  | 3 => B t .accepted [] (some t) (.recv 0 (some 0)) 0 .idle
  | 4 => B t .accepted [] none (.handling 0 0 t) 1 .idle
  | 5 => B t .accepted [] none (.stamp 0 0) 1 .idle
  | 6 => B t .accepted [] none (.free 0 0) 1 .idle
  | 7 => B t .accepted [0] none (.recv 0 (some 0)) 1 .idle
  | _ => B t .accepted [0] none (.recv 0 (some 0)) 1 (.closing [])

/-- In the first round the goroutine is started. -/
def pre : Nat → St
  | 0 => init 1 0 fun _ => 0
  | 1 => (init 1 0 fun _ => 0).setJob 0 .called
  | 2 => B 0 (.sending 0) [] none (.start 0) 0 .idle
  | _ => B 0 .accepted [] (some 0) (.start 0) 0 .idle

def endless (n : Nat) : St := if n < 4 then pre n else mid ((n - 1) / 9) ((n - 1) % 9)

theorem st_eq {a b : St} (h1 : a.maxWorkers = b.maxWorkers) (h2 : a.workers = b.workers) (h3 : a.dobby = b.dobby) (h4 : a.ch = b.ch)
    (h5 : a.tt = b.tt) (h6 : a.nextW = b.nextW) (h7 : a.pool = b.pool) (h8 : a.buf = b.buf) (h9 : a.closed = b.closed)
    (h10 : a.nextC = b.nextC) (h11 : a.job = b.job) (h12 : a.gor = b.gor) (h13 : a.nextG = b.nextG) (h14 : a.gc = b.gc)
    (h15 : a.stopSet = b.stopSet) (h16 : a.stop = b.stop) (h17 : a.handled = b.handled) (h18 : a.crashed = b.crashed) : a = b := by
  cases a; cases b; simp_all

theorem stepTo {s a b : St} (h : Step s a) (e : a = b) : Step s b := e ▸ h

macro "st_auto" : tactic => `(tactic| (
  apply st_eq <;> (first | rfl | (funext x; simp only [endless, pre, mid, B, St.setJob, St.setGor, St.spawn, init]; (repeat' split) <;> (try simp_all) <;> (try omega)))))

theorem mid_step (t : Nat) : ∀ i, i < 8 → Step (mid t i) (mid t (i + 1))
  | 0, _ => stepTo (.call _ t (by simp [mid, B])) (by st_auto)
  | 1, _ => stepTo (.runReuse _ t [] 0 (by simp [mid, B]) (by simp [mid, B]) (by simp [mid, B])) (by st_auto)
  | 2, _ => stepTo (.send _ t 0 0 (by simp [mid, B]) (by simp [mid, B]) (by simp [mid, B]) (by simp [mid, B])) (by st_auto)
  | 3, _ => stepTo (.take _ 0 0 0 t (by simp [mid, B]) (by simp [mid, B])) (by st_auto)
  | 4, _ => stepTo (.handled _ 0 0 0 t (by simp [mid, B])) (by st_auto)
  | 5, _ => stepTo (.stamp _ 0 0 0 0 (by simp [mid, B])) (by st_auto)
  | 6, _ => stepTo (.freeBack _ 0 0 0 (by simp [mid, B]) (by simp [mid, B])) (by st_auto)
  | 7, _ => stepTo (.tick _ 0 0 (by simp [mid, B]) (by simp [mid, B]) (by simp [mid, B, cut, cutLoop])) (by st_auto)
  | n + 8, h => absurd h (by omega)

theorem mid_next (t : Nat) : Step (mid t 8) (mid (t + 1) 0) :=
  stepTo (.collected _ (by simp [mid, B])) (by st_auto)

theorem endless_at (t i : Nat) (hi : i < 9) (h : 4 ≤ 9 * t + i + 1) : endless (9 * t + i + 1) = mid t i := by
  unfold endless
  rw [if_neg (by omega)]
  have h1 : (9 * t + i + 1 - 1) / 9 = t := by omega
  have h2 : (9 * t + i + 1 - 1) % 9 = i := by omega
  rw [h1, h2]

theorem endless_exec : Exec 1 0 endless := by
  refine ⟨⟨fun _ => 0, rfl⟩, fun n => .inl ?_⟩
  by_cases h : n < 3
  · match n, h with
    | 0, _ => exact .call _ 0 rfl
    | 1, _ =>
      exact stepTo (.runFresh _ 0 (by simp [endless, pre, St.setJob]) (by simp [endless, pre, St.setJob, init])
        (by simp [endless, pre, St.setJob, init]) (by simp [endless, pre, St.setJob, init])) (by
          show _ = B _ _ _ _ _ _ _
          st_auto)
    | 2, _ =>
      exact stepTo (.send _ 0 0 0 (by simp [endless, pre, B]) (by simp [endless, pre, B]) (by simp [endless, pre, B]) (by simp [endless, pre, B]))
        (by
          show _ = B _ _ _ _ _ _ _
          st_auto)
  · by_cases h3 : n = 3
    · subst h3
      exact stepTo (.begin _ 0 0 (by simp [endless, pre, B])) (by
        show _ = B _ _ _ _ _ _ _
        st_auto)
    · obtain ⟨t, i, hi, rfl⟩ : ∃ t i, i < 9 ∧ n = 9 * t + i + 1 := ⟨(n - 1) / 9, (n - 1) % 9, by omega, by omega⟩
      rw [endless_at t i hi (by omega)]
      by_cases h8 : i = 8
      · subst h8
        have : 9 * t + 8 + 1 + 1 = 9 * (t + 1) + 0 + 1 := by omega
        rw [this, endless_at (t + 1) 0 (by omega) (by omega)]
        exact mid_next t
      · have : 9 * t + i + 1 + 1 = 9 * t + (i + 1) + 1 := by omega
        rw [this, endless_at t (i + 1) (by omega) (by omega)]
        exact mid_step t i (by omega)

/-- There is only the one goroutine. -/
theorem mid_gor {t k : Nat} (hk : k ≠ 0) {s' : St} (st : Step (mid t 0) s') : s'.gor k = .unborn := by
  have h0 : ∀ k', (mid t 0).gor k' = .recv 0 (some 0) ∨ (mid t 0).gor k' = .unborn := fun k' => by
    by_cases e : k' = 0 <;> simp [mid, B, e]
  have hu : (mid t 0).gor k = .unborn := by simp [mid, B, hk]
  have hw : ∀ {q k'}, (∃ g, (mid t 0).gor k' = g ∧ g ≠ .unborn) → (if k = k' then q else (mid t 0).gor k) = .unborn := by
    rintro q k' ⟨g, h1, h2⟩
    have : k ≠ k' := by rintro rfl; rw [hu] at h1; exact h2 h1.symm
    rw [if_neg this]; exact hu
  cases st with
  | runPooled i w p p' a b d f g => simp [mid, B] at g
  | runFresh i a b d f => simp [mid, B] at d
  | «begin» k' w a => exact hw ⟨_, a, by simp⟩
  | take k' w c j a b => exact hw ⟨_, a, by simp⟩
  | rangeEnd k' w c a b d => exact hw ⟨_, a, by simp⟩
  | handled k' w c j a => exact hw ⟨_, a, by simp⟩
  | stamp k' w c t' a => exact hw ⟨_, a, by simp⟩
  | freeDraining k' w c a b => exact hw ⟨_, a, by simp⟩
  | freeBack k' w c a b => exact hw ⟨_, a, by simp⟩
  | exit k' a => exact hw ⟨_, a, by simp⟩
  | _ => exact hu

theorem endless_start (t : Nat) (h : 1 ≤ t) : endless (9 * t + 0 + 1) = mid t 0 := endless_at t 0 (by omega) (by omega)

theorem endless_fair : Fair endless := by
  refine ⟨fun j n h => ?_, fun k n h => ?_, fun n h => ?_, fun k n h => ?_⟩
  · exfalso
    obtain ⟨_, s', st, hne⟩ := h (9 * (n + j + 1) + 0 + 1) (by omega)
    rw [endless_start _ (by omega)] at st hne
    have hj : (mid (n + j + 1) 0).job j = .accepted := by
      have : j ≠ n + j + 1 := by omega
      have h2 : j < n + j + 1 := by omega
      simp [mid, B, this, h2]
    rcases job_step (j := j) st with g | ⟨g, _⟩ | ⟨g, _⟩ | ⟨⟨w, g⟩, _⟩
    · exact hne g
    all_goals rw [hj] at g; cases g
  · by_cases hk : k = 0
    · subst hk
      refine ⟨9 * (n + 1) + 3 + 1, by omega, ?_⟩
      have : 9 * (n + 1) + 3 + 1 + 1 = 9 * (n + 1) + 4 + 1 := by omega
      rw [this, endless_at _ 3 (by omega) (by omega), endless_at _ 4 (by omega) (by omega)]
      simp [mid, B]
    · exfalso
      obtain ⟨_, s', st, hne⟩ := h (9 * (n + 1) + 0 + 1) (by omega)
      rw [endless_start _ (by omega)] at st hne
      refine hne ((mid_gor hk st).trans ?_)
      simp [mid, B, hk]
  · refine ⟨9 * (n + 1) + 7 + 1, by omega, ?_⟩
    have : 9 * (n + 1) + 7 + 1 + 1 = 9 * (n + 1) + 8 + 1 := by omega
    rw [this, endless_at _ 7 (by omega) (by omega), endless_at _ 8 (by omega) (by omega)]
    simp [mid, B]
  · exfalso
    obtain ⟨m, h1, h2, _⟩ := h n (Nat.le_refl _)
    refine h2 ?_
    unfold endless
    split
    · rename_i h4
      match m, h4 with
      | 0, _ => rfl
      | 1, _ => rfl
      | 2, _ => rfl
      | 3, _ => rfl
    · unfold mid
      split <;> rfl

theorem endless_runs (m : Nat) : (endless m).maxWorkers ≠ -1 := by
  unfold endless
  split
  · rename_i h4
    match m, h4 with
    | 0, _ => decide
    | 1, _ => decide
    | 2, _ => decide
    | 3, _ => decide
  · unfold mid
    split <;> simp [B]

theorem endless_calls (n : Nat) : ∃ m, n ≤ m ∧ ∃ j, (endless m).job j = .called :=
  ⟨9 * (n + 1) + 1 + 1, by omega, n + 1, by rw [endless_at _ 1 (by omega) (by omega)]; simp [mid, B]⟩

end Verif.PoolFull
