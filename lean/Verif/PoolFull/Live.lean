import Verif.PoolFull.Lemmas
import Verif.GoPool.Props
import Mathlib.Algebra.Order.BigOperators.Group.List
/-!
# A pool that takes nothing on comes to rest
-/
namespace Verif.PoolFull
open Verif.GoPool Verif.PoolSerial Verif.PoolFair Verif.PoolDrain

variable {s s' : St} {mx : Int} {tok : Nat → Loc} {cw rdr jc rd jb : Nat → Nat} {j k w c n N : Nat} {σ : Nat → St}

/-- No job is taken on in the step. -/
def NoneTaken (s s' : St) : Prop := ∀ j w, s.job j = .called → s'.job j ≠ .sending w

theorem prog_old (st : Step s s') (hn : NoneTaken s s') (h : InProgress s' j) : InProgress s j := by
  have job : ∀ {i q}, (∀ w, q ≠ JobPc.sending w) → ∀ {w}, (if j = i then q else s.job j) = .sending w → s.job j = .sending w := by
    intro i q hq w hh
    by_cases e : j = i
    · rw [if_pos e] at hh; exact absurd hh (hq w)
    · rw [if_neg e] at hh; exact hh
  have gor : ∀ {i q k w c}, (∀ w c, q ≠ GorPc.handling w c j) → (if k = i then q else s.gor k) = .handling w c j → s.gor k = .handling w c j := by
    intro i q k w c hq hh
    by_cases e : k = i
    · rw [if_pos e] at hh; exact absurd hh (hq w c)
    · rw [if_neg e] at hh; exact hh
  cases st with
  | call i a =>
    rcases h with ⟨w, h⟩ | h | h
    · exact .inl ⟨w, job (by simp) h⟩
    · exact .inr (.inl h)
    · exact .inr (.inr h)
  | runDraining i a b =>
    rcases h with ⟨w, h⟩ | h | h
    · exact .inl ⟨w, job (by simp) h⟩
    · exact .inr (.inl h)
    · exact .inr (.inr h)
  | runFull i a b =>
    rcases h with ⟨w, h⟩ | h | h
    · exact .inl ⟨w, job (by simp) h⟩
    · exact .inr (.inl h)
    · exact .inr (.inr h)
  | runReuse i ws w a b d => exact absurd (by simp [St.setJob]) (hn i w a)
  | runPooled i w p p' a b d => exact absurd (by simp [St.setJob]) (hn i w a)
  | runFresh i a b d => exact absurd (by simp [St.setJob]) (hn i s.nextW a)
  | send i w0 c0 a b d f =>
    rcases h with ⟨w, h⟩ | ⟨c, h⟩ | h
    · exact .inl ⟨w, job (by simp) h⟩
    · simp only [St.setJob] at h
      split at h
      · cases h; exact .inl ⟨w0, a⟩
      · exact .inr (.inl ⟨c, h⟩)
    · exact .inr (.inr h)
  | take k0 w0 c0 j0 a b =>
    rcases h with h | ⟨c, h⟩ | ⟨k, w, c, h⟩
    · exact .inl h
    · simp only [St.setGor] at h
      split at h
      · cases h
      · exact .inr (.inl ⟨c, h⟩)
    · simp only [St.setGor] at h
      split at h
      · cases h; exact .inr (.inl ⟨c0, b⟩)
      · exact .inr (.inr ⟨k, w, c, h⟩)
  | «begin» =>
    rcases h with h | h | ⟨k, w, c, h⟩
    · exact .inl h
    · exact .inr (.inl h)
    · exact .inr (.inr ⟨k, w, c, gor (by simp) h⟩)
  | rangeEnd =>
    rcases h with h | h | ⟨k, w, c, h⟩
    · exact .inl h
    · exact .inr (.inl h)
    · exact .inr (.inr ⟨k, w, c, gor (by simp) h⟩)
  | handled =>
    rcases h with h | h | ⟨k, w, c, h⟩
    · exact .inl h
    · exact .inr (.inl h)
    · exact .inr (.inr ⟨k, w, c, gor (by simp) h⟩)
  | stamp =>
    rcases h with h | h | ⟨k, w, c, h⟩
    · exact .inl h
    · exact .inr (.inl h)
    · exact .inr (.inr ⟨k, w, c, gor (by simp) h⟩)
  | freeDraining =>
    rcases h with h | h | ⟨k, w, c, h⟩
    · exact .inl h
    · exact .inr (.inl h)
    · exact .inr (.inr ⟨k, w, c, gor (by simp) h⟩)
  | freeBack =>
    rcases h with h | h | ⟨k, w, c, h⟩
    · exact .inl h
    · exact .inr (.inl h)
    · exact .inr (.inr ⟨k, w, c, gor (by simp) h⟩)
  | exit =>
    rcases h with h | h | ⟨k, w, c, h⟩
    · exact .inl h
    · exact .inr (.inl h)
    · exact .inr (.inr ⟨k, w, c, gor (by simp) h⟩)
  | _ => exact h

/-- How far a goroutine is from its rest. -/
def rank : GorPc → Nat
  | .start _ => 3
  | .recv _ _ => 2
  | .handling _ _ _ => 5
  | .stamp _ _ => 4
  | .free _ _ => 3
  | .exiting => 1
  | _ => 0

/-- The work left, when the jobs in progress are among `js`. -/
def work (js : List Nat) (s : St) : Nat :=
  10 * (js.map fun j => 1 - s.handled j).sum + ((List.range s.nextG).map fun k => rank (s.gor k)).sum

theorem work_upd {js : List Nat} {q : GorPc} (hh : s'.handled = s.handled) (hn : s'.nextG = s.nextG)
    (hg : s'.gor = fun i => if i = k then q else s.gor i) (hk : k < s.nextG) (hq : rank q < rank (s.gor k)) : work js s' < work js s := by
  have := sum_upd (fun k => rank (s.gor k)) k (rank q) s.nextG
  have e : (fun i => rank (s'.gor i)) = fun i => if i = k then rank q else rank (s.gor i) := by
    funext i; rw [hg]; dsimp only; split <;> rfl
  unfold work
  rw [hn, e, hh]
  simp only [hk, if_true] at this
  omega

theorem work_step {js : List Nat} (i : Inv s tok cw rdr jc) (hx : s.maxWorkers ≠ -1) (st : Step s s') (hn : NoneTaken s s')
    (hj : ∀ j, InProgress s j → j ∈ js) : (s'.gor = s.gor ∧ work js s' = work js s) ∨ work js s' < work js s := by
  have lt : ∀ k, s.gor k ≠ .unborn → k < s.nextG := fun k h => by
    by_contra hc; exact h (i.gfresh k (by omega))
  cases st with
  | runReuse i ws w a b d => exact absurd (by simp [St.setJob]) (hn i w a)
  | runPooled i w p p' a b d => exact absurd (by simp [St.setJob]) (hn i w a)
  | runFresh i a b d => exact absurd (by simp [St.setJob]) (hn i s.nextW a)
  | begin k w h => exact .inr (work_upd rfl rfl rfl (lt k (by simp [h])) (by rw [h]; simp [rank]))
  | rangeEnd k w c h h1 h2 => exact .inr (work_upd rfl rfl rfl (lt k (by simp [h])) (by rw [h]; simp [rank]))
  | handled k w c j h => exact .inr (work_upd rfl rfl rfl (lt k (by simp [h])) (by rw [h]; simp [rank]))
  | stamp k w c t h => exact .inr (work_upd rfl rfl rfl (lt k (by simp [h])) (by rw [h]; simp [rank]))
  | freeDraining k w c h h1 => exact absurd h1 hx
  | freeBack k w c h h1 => exact .inr (work_upd rfl rfl rfl (lt k (by simp [h])) (by rw [h]; simp [rank]))
  | exit k h => exact .inr (work_upd rfl rfl rfl (lt k (by simp [h])) (by rw [h]; simp [rank]))
  | take k w c j h h1 =>
    right
    have h0 := (i.job1 c j h1).2.1
    have hm : j ∈ js := hj j (.inr (.inl ⟨c, h1⟩))
    have hk := lt k (by simp [h])
    have hs := sum_upd (fun k => rank (s.gor k)) k (rank (.handling w c j)) s.nextG
    have e : (fun i => rank (if i = k then GorPc.handling w c j else s.gor i)) =
        fun i => if i = k then rank (.handling w c j) else rank (s.gor i) := by
      funext i; split <;> rfl
    have hl : (js.map fun i => 1 - if i = j then s.handled i + 1 else s.handled i).sum < (js.map fun i => 1 - s.handled i).sum := by
      refine List.sum_lt_sum _ _ (fun i _ => by split <;> omega) ⟨j, hm, by simp [h0]⟩
    simp only [work, St.setGor]
    rw [e]
    simp only [hk, if_true, h, rank] at hs ⊢
    omega
  | _ => exact .inl ⟨rfl, rfl⟩

variable (hm : 0 < mx) (e : Exec mx 0 σ) (hf : Fair σ) (hx : ∀ m, (σ m).maxWorkers ≠ -1)

include hm e hx in
/-- If nothing is taken on any more the goroutines come to rest. -/
theorem full_rest (hn : ∀ m, N ≤ m → ¬ TakesOnAt σ m) : ∃ R, N ≤ R ∧ ∀ m, R ≤ m → (σ m).gor = (σ R).gor := by
  have none : ∀ m, N ≤ m → NoneTaken (σ m) (σ (m + 1)) := fun m h j w h1 h2 => hn m h ⟨j, w, h1, h2⟩
  obtain ⟨js, rs, ls, hj, _⟩ := account hm (e.reach N) (hx N)
  have sub : ∀ m, N ≤ m → ∀ j, InProgress (σ m) j → j ∈ js :=
    keeps e (P := fun s => ∀ j, InProgress s j → j ∈ js) (fun m h1 h2 st j h => h2 j (prog_old st (none m h1) h)) fun j h => (hj.2 j).2 h
  have hst : ∀ m, N ≤ m → ((σ (m + 1)).gor = (σ m).gor ∧ work js (σ (m + 1)) = work js (σ m)) ∨ work js (σ (m + 1)) < work js (σ m) :=
    fun m h1 => by
      rcases e.next m with st | st
      · obtain ⟨tok, cw, rdr, jc, i⟩ := inv_reach hm (e.reach m)
        exact work_step i (hx m) st (none m h1) (sub m h1)
      · rw [st]; exact .inl ⟨rfl, rfl⟩
  have key : ∀ d a, N ≤ a → work js (σ a) = d → ∃ R, N ≤ R ∧ ∀ m, R ≤ m → (σ m).gor = (σ R).gor := by
    intro d
    induction d using Nat.strongRecOn with
    | _ d ih =>
      intro a ha hd
      by_cases hex : ∃ m, a ≤ m ∧ work js (σ m) < d
      · obtain ⟨m, h1, h2⟩ := hex
        exact ih _ h2 m (by omega) rfl
      · have all : ∀ m, a ≤ m → work js (σ m) = d ∧ (σ m).gor = (σ a).gor := fun m h1 => by
          induction m, h1 using Nat.le_induction with
          | base => exact ⟨hd, rfl⟩
          | succ m h1 ihm =>
            rcases hst m (by omega) with g | g
            · exact ⟨g.2.trans ihm.1, g.1.trans ihm.2⟩
            · exact absurd ⟨m + 1, by omega, by omega⟩ hex
        exact ⟨a, ha, fun m h1 => (all m h1).2⟩
  exact key _ N (Nat.le_refl _) rfl

variable (hr : ∀ m, n ≤ m → (σ m).gor = (σ n).gor)

include hf hx hr in
/-- What is at rest waits for a channel. -/
theorem rest_waits (hl : ((σ n).gor k).live = true) : ∃ w o, (σ n).gor k = .recv w o := by
  by_contra hc
  have same : ∀ m, n ≤ m → (σ m).gor k = (σ n).gor k := fun m h => by rw [hr m h]
  refine weakly (f := fun s => s.gor k) (hf.workers k) same fun m h => ?_
  cases hk : (σ n).gor k with
  | unborn => rw [hk] at hl; cases hl
  | dead => rw [hk] at hl; cases hl
  | recv w o => exact absurd ⟨w, o, hk⟩ hc
  | start w => exact ⟨_, .begin _ k w ((same m h).trans hk), by simp [St.setGor, same m h, hk]⟩
  | handling w c j => exact ⟨_, .handled _ k w c j ((same m h).trans hk), by simp [St.setGor, same m h, hk]⟩
  | stamp w c => exact ⟨_, .stamp _ k w c 0 ((same m h).trans hk), by simp [St.setGor, same m h, hk]⟩
  | free w c => exact ⟨_, .freeBack _ k w c ((same m h).trans hk) (hx m), by simp [St.setGor, same m h, hk]⟩
  | exiting => exact ⟨_, .exit _ k ((same m h).trans hk), by simp [St.setGor, same m h, hk]⟩

include hm e hf hr in
theorem rest_open (hk : (σ n).gor k = .recv w (some c)) : ∀ m, n ≤ m → (σ m).closed c = false := by
  intro m h
  cases hc : (σ m).closed c with
  | false => rfl
  | true =>
    exfalso
    have stay := keeps e (n := m) (P := fun s => s.closed c = true) (fun a _ h2 st => by
      obtain ⟨tok, cw, rdr, jc, i⟩ := inv_reach hm (e.reach a)
      exact closed_step i st h2) hc
    refine weakly (n := m) (f := fun s => s.gor k) (hf.workers k) (fun a ha => by rw [hr a (by omega), hr m h]) fun a ha => ?_
    exact recv_ready (w := w) (c := c) (by rw [hr a (by omega)]; exact hk) (.inl (stay a ha))

include e hf hr in
theorem rest_empty (hk : (σ n).gor k = .recv w (some c)) : ∀ m, n ≤ m → (σ m).buf c ≠ some j := by
  intro m h hb
  have stay : ∀ a, m ≤ a → (σ a).buf c = some j := fun a ha => by
    induction a, ha using Nat.le_induction with
    | base => exact hb
    | succ a ha ih =>
      rcases e.next a with st | st
      · exact buf_keep st (by rw [hr (a + 1) (by omega), hr a (by omega)]) ih
      · rw [st]; exact ih
  refine weakly (n := m) (f := fun s => s.gor k) (hf.workers k) (fun a ha => by rw [hr a (by omega), hr m h]) fun a ha => ?_
  exact recv_ready (w := w) (c := c) (by rw [hr a (by omega)]; exact hk) (.inr ⟨j, stay a ha⟩)

include hm e hf hr in
theorem rest_channel (hk : (σ n).gor k = .recv w (some c)) : ∀ m, n ≤ m → (σ m).ch w = some c := by
  intro m h
  obtain ⟨tok, cw, rdr, jc, rd, jb, i, fr⟩ := fr_reach hm (e.reach m)
  rcases fr.recv k w c (by rw [hr m h]; exact hk) with g | g
  · rw [rest_open hm e hf hr hk m h] at g; cases g
  · exact g.1

include hm e hf hr in
theorem rest_no_run (hk : (σ n).gor k = .recv w (some c)) : ∀ m, n ≤ m → (σ m).job j ≠ .sending w := by
  intro m h hj
  have : ∃ a, m ≤ a ∧ (σ a).job j = (σ m).job j ∧ (σ (a + 1)).job j ≠ (σ a).job j := by
    by_contra hc
    have stay := moves (f := fun s => s.job j) hc
    obtain ⟨a, h1, h2⟩ := hf.runs j m fun a ha => by
      have h3 : (σ a).job j = .sending w := (stay a ha).trans hj
      refine ⟨by simp [h3], ?_⟩
      obtain ⟨s', st, h4⟩ := sendable hm (e.reach a) h3
      exact ⟨s', st, by simp [h4, h3]⟩
    exact h2 ((stay (a + 1) (by omega)).trans (stay a h1).symm)
  obtain ⟨a, h1, h2, h3⟩ := this
  rw [hj] at h2
  rcases e.next a with st | st
  · have hch := rest_channel hm e hf hr hk a (by omega)
    have : (σ (a + 1)).buf c = some j := by
      have same : ∀ {i q}, i ≠ j → (if j = i then q else (σ a).job j) = (σ a).job j := fun h => if_neg (Ne.symm h)
      have ne : ∀ {i q}, (σ a).job i = q → q ≠ .sending w → i ≠ j := fun h1 h4 h5 => h4 (by rw [← h1, h5, h2])
      generalize hs : σ (a + 1) = s' at st h3 ⊢
      cases st with
      | send i w0 c0 b1 b2 b3 b4 =>
        by_cases e1 : i = j
        · subst e1
          rw [h2] at b1; cases b1
          rw [hch] at b2; cases b2
          simp [St.setJob]
        · exact absurd (same e1) h3
      | call i b => exact absurd (same (ne b (by simp))) h3
      | runDraining i b _ => exact absurd (same (ne b (by simp))) h3
      | runReuse i _ _ b _ _ => exact absurd (same (ne b (by simp))) h3
      | runPooled i _ _ _ b _ _ _ _ => exact absurd (same (ne b (by simp))) h3
      | runFresh i b _ _ _ => exact absurd (same (ne b (by simp))) h3
      | runFull i b _ _ _ => exact absurd (same (ne b (by simp))) h3
      | _ => exact absurd rfl h3
    exact rest_empty e hf hr hk (a + 1) (by omega) this
  · exact h3 (by rw [st])

/-- A worker comes to the idle list only in a step of its goroutine. -/
theorem dobby_old (st : Step s s') (hg : s'.gor = s.gor) (h : w ∈ s'.dobby) : w ∈ s.dobby := by
  cases st with
  | runReuse i ws w0 a b d => rw [d]; exact List.mem_append_left _ h
  | freeBack k w c a b => exact absurd hg (by simp only [St.setGor]; exact upd_ne (by simp [a]))
  | tick now l a b d => exact List.mem_of_mem_drop h
  | _ => exact h

include hm e hf hr in
theorem rest_idle (hk : (σ n).gor k = .recv w (some c)) : ∀ m, n ≤ m → w ∈ (σ m).dobby := by
  have two : ∀ m, n ≤ m → w ∈ (σ m).dobby ∨ w ∈ (σ m).gc.held := by
    intro m h
    obtain ⟨tok, cw, rdr, jc, rd, jb, i, fr⟩ := fr_reach hm (e.reach m)
    rcases fr.recv k w c (by rw [hr m h]; exact hk) with g | ⟨_, _, g | g | g | g⟩
    · rw [rest_open hm e hf hr hk m h] at g; cases g
    · exact .inl g
    · exact .inr g
    · exact absurd g (rest_no_run hm e hf hr hk m h)
    · unfold St.queued at g
      rw [rest_channel hm e hf hr hk m h] at g
      exact absurd g (rest_empty e hf hr hk m h)
  intro m h
  by_contra hd
  have never : ∀ a, m ≤ a → w ∉ (σ a).dobby := fun a ha => by
    induction a, ha using Nat.le_induction with
    | base => exact hd
    | succ a ha ih =>
      rcases e.next a with st | st
      · exact fun h' => ih (dobby_old st (by rw [hr (a + 1) (by omega), hr a (by omega)]) h')
      · rw [st]; exact ih
  have held : ∀ a, m ≤ a → w ∈ (σ a).gc.held := fun a ha => (two a (by omega)).resolve_left (never a ha)
  obtain ⟨a, h1, h2⟩ := idles (n := m) hm e hf fun a ha => by
    constructor <;> intro h3 <;> have := held a ha <;> rw [h3] at this <;> cases this
  have := held a h1
  rw [h2] at this; cases this

include hm e hf hx hr in
/-- At rest the pool can take a job on. -/
theorem rest_ready {m : Nat} (h : n ≤ m) : (σ m).dobby ≠ [] ∨ (σ m).workers < (σ m).maxWorkers := by
  obtain ⟨g, cn⟩ := cnt_reach hm (e.reach m)
  cases g with
  | nil =>
    right
    have h1 := cn.len
    rcases cn.max with h2 | h2
    · rw [h1, h2]; exact hm
    · exact absurd h2 (hx m)
  | cons k g =>
    left
    have hl : ((σ n).gor k).live = true := by rw [← hr m h]; exact (cn.mem k).1 List.mem_cons_self
    obtain ⟨w, o, hk⟩ := rest_waits hf hx hr hl
    cases o with
    | none =>
      obtain ⟨tok, cw, rdr, jc, rd, jb, i, fr⟩ := fr_reach hm (e.reach n)
      exact absurd hk (fr.nonil k w)
    | some c => exact List.ne_nil_of_mem (rest_idle hm e hf hr hk m h)

end Verif.PoolFull
