import Verif.PoolDrain.Spec
import Verif.PoolFair.Props
/-!
# Lemmas for C126
-/
namespace Verif.PoolDrain
open Verif.GoPool Verif.PoolFair

variable {s s' : St} {mx : Int} {p : Nat} {σ : Nat → St} {tok : Nat → Loc} {cw rdr jc rd jb : Nat → Nat} {j k w c n : Nat}

/-- A `Stop` call that got through has reached the collector. -/
theorem sent_step (hs : Sto s) (h : (∃ k, s.stop k = .sent ∨ s.stop k = .returned) → s.gc = .stopping ∨ s.gc = .dead) (st : Step s s') :
    (∃ k, s'.stop k = .sent ∨ s'.stop k = .returned) → s'.gc = .stopping ∨ s'.gc = .dead := by
  have no : s.gc ≠ .stopping → s.gc ≠ .dead → ¬ ∃ k, s.stop k = .sent ∨ s.stop k = .returned := fun a b c => by
    rcases h c with g | g
    · exact a g
    · exact b g
  cases st with
  | stopCall k' a b =>
    rintro ⟨k, hk⟩
    apply h
    by_cases e : k = k'
    · simp [St.setStop, e] at hk
    · exact ⟨k, by simpa [St.setStop, e] using hk⟩
  | stopNil k' a b => exact fun _ => h (hs.set b)
  | stopSignal k' a b d => exact fun _ => .inl rfl
  | stopClear k' a => exact fun _ => h ⟨k', .inl a⟩
  | stopAll cl a b => exact fun _ => .inr rfl
  | tick now l a b d => exact fun g => absurd g (no (by simp [a]) (by simp [a]))
  | tickDraining cl a b d => exact fun _ => .inr rfl
  | closeOne w ws c a b d => exact fun g => absurd g (no (by simp [a]) (by simp [a]))
  | clearOne w ws a => exact fun g => absurd g (no (by simp [a]) (by simp [a]))
  | putOne w ws a => exact fun g => absurd g (no (by simp [a]) (by simp [a]))
  | collected a => exact fun g => absurd g (no (by simp [a]) (by simp [a]))
  | _ => exact h

theorem sent_gc (hm : 0 < mx) (r : Reach mx p s) (h : s.stop k = .sent ∨ s.stop k = .returned) : s.gc = .stopping ∨ s.gc = .dead := by
  have key : (∃ k, s.stop k = .sent ∨ s.stop k = .returned) → s.gc = .stopping ∨ s.gc = .dead := by
    clear h
    induction r with
    | init t => rintro ⟨k, h⟩; simp [init] at h
    | step r st ih => exact sent_step (sto_reach hm r) ih st
  exact key ⟨k, h⟩

/-- Something whose value does not change for ever after is not always ready to change. -/
theorem weakly {β : Type} {f : St → β} (hf : WeaklyFair (fun _ => True) f σ) (hc : ∀ m, n ≤ m → f (σ m) = f (σ n))
    (he : ∀ m, n ≤ m → Enabled f (σ m)) : False := by
  obtain ⟨m, h1, h2⟩ := hf n fun m hm => ⟨trivial, he m hm⟩
  exact h2 ((hc (m + 1) (by omega)).trans (hc m h1).symm)

theorem keeps {P : St → Prop} (e : Exec mx p σ) (hs : ∀ m, n ≤ m → P (σ m) → Step (σ m) (σ (m + 1)) → P (σ (m + 1))) (h : P (σ n)) :
    ∀ m, n ≤ m → P (σ m) := fun m hm => by
  induction m, hm using Nat.le_induction with
  | base => exact h
  | succ m hm ih =>
    rcases e.next m with st | st
    · exact hs m hm ih st
    · rw [st]; exact ih

/-- Something that moves on when it can: either it moves, or for ever stays as it is. -/
theorem moves {β : Type} {f : St → β} (hc : ¬ ∃ m, n ≤ m ∧ f (σ m) = f (σ n) ∧ f (σ (m + 1)) ≠ f (σ m)) :
    ∀ m, n ≤ m → f (σ m) = f (σ n) := fun m hm => by
  induction m, hm using Nat.le_induction with
  | base => rfl
  | succ m hm ih =>
    by_contra hd
    exact hc ⟨m, hm, ih, fun h => hd (h.trans ih)⟩

theorem stopAll_ready (i : Inv s tok cw rdr jc) (h : s.gc = .stopping) : ∃ cl, closeAll s.ch s.dobby s.closed = some cl := by
  have hx : s.maxWorkers ≠ -1 := fun hx => by have := i.max1.1 hx; rw [h] at this; cases this
  obtain ⟨cl, h1, _⟩ := closeAll_some (fun w c hc => (i.cw1 w c hc).1) s.dobby s.closed i.dobby2 fun w hw => by
    obtain ⟨g1, g2⟩ := i.idle w ((i.dobby1 w).1 hw)
    exact ⟨g1, g2 hx⟩
  exact ⟨cl, h1⟩

theorem gc_step (st : Step s s') (h : s.gc = .stopping) : s'.gc = .stopping ∨ s'.maxWorkers = -1 := by
  cases st with
  | tick now l a b d => rw [h] at a; cases a
  | tickDraining cl a b d => rw [h] at a; cases a
  | closeOne w ws c a b d => rw [h] at a; cases a
  | clearOne w ws a => rw [h] at a; cases a
  | putOne w ws a => rw [h] at a; cases a
  | collected a => rw [h] at a; cases a
  | stopSignal k' a b d => exact .inl rfl
  | stopAll cl a b => exact .inr rfl
  | _ => exact .inl h

/-- After a `Stop` call got through the pool gets to be stopped. -/
theorem stopped (hm : 0 < mx) (e : Exec mx p σ) (hf : Fair σ) (h : (σ n).stop k = .sent ∨ (σ n).stop k = .returned) :
    ∃ m, n ≤ m ∧ (σ m).maxWorkers = -1 := by
  rcases sent_gc hm (e.reach n) h with g | g
  · by_contra hc
    have stay : ∀ m, n ≤ m → (σ m).gc = .stopping := keeps e (P := fun s => s.gc = .stopping) (fun m h1 h2 st =>
      (gc_step st h2).resolve_right fun h3 => hc ⟨m + 1, by omega, h3⟩) g
    refine weakly (f := fun s => s.gc) hf.collector (fun m h1 => (stay m h1).trans g.symm) fun m h1 => ?_
    obtain ⟨tok, cw, rdr, jc, i⟩ := inv_reach hm (e.reach m)
    obtain ⟨cl, h2⟩ := stopAll_ready i (stay m h1)
    exact ⟨_, .stopAll _ cl (stay m h1) h2, by simp [stay m h1]⟩
  · obtain ⟨tok, cw, rdr, jc, i⟩ := inv_reach hm (e.reach n)
    exact ⟨n, Nat.le_refl _, i.max1.2 g⟩

theorem stays_stopped (hm : 0 < mx) (e : Exec mx p σ) (h : (σ n).maxWorkers = -1) : ∀ m, n ≤ m → (σ m).maxWorkers = -1 :=
  keeps e (P := fun s => s.maxWorkers = -1) (fun m _ h2 st => by
    obtain ⟨tok, cw, rdr, jc, i⟩ := inv_reach hm (e.reach m)
    exact (left_step i h2 st).1) h

/-- The worker goroutines of a stopped pool come to rest. -/
theorem rest (hm : 0 < mx) (e : Exec mx p σ) (h : (σ n).maxWorkers = -1) : ∃ N, n ≤ N ∧ ∀ m, N ≤ m → (σ m).gor = (σ N).gor := by
  have hst : ∀ m, n ≤ m → ((σ (m + 1)).gor = (σ m).gor ∧ (σ (m + 1)).left = (σ m).left) ∨ (σ (m + 1)).left < (σ m).left :=
    fun m h1 => by
      rcases e.next m with st | st
      · obtain ⟨tok, cw, rdr, jc, i⟩ := inv_reach hm (e.reach m)
        exact (left_step i (stays_stopped hm e h m h1) st).2
      · rw [st]; exact .inl ⟨rfl, rfl⟩
  have key : ∀ d N, n ≤ N → (σ N).left = d → ∃ N, n ≤ N ∧ ∀ m, N ≤ m → (σ m).gor = (σ N).gor := by
    intro d
    induction d using Nat.strongRecOn with
    | _ d ih =>
      intro N hN hd
      by_cases hex : ∃ m, N ≤ m ∧ (σ m).left < d
      · obtain ⟨m, h1, h2⟩ := hex
        exact ih _ h2 m (by omega) rfl
      · have all : ∀ m, N ≤ m → (σ m).left = d ∧ (σ m).gor = (σ N).gor := fun m h1 => by
          induction m, h1 using Nat.le_induction with
          | base => exact ⟨hd, rfl⟩
          | succ m h1 ihm =>
            rcases hst m (by omega) with g | g
            · exact ⟨g.2.trans ihm.1, g.1.trans ihm.2⟩
            · exact absurd ⟨m + 1, by omega, by omega⟩ hex
        exact ⟨N, hN, fun m h1 => (all m h1).2⟩
  exact key _ n (Nat.le_refl _) rfl

theorem closed_step (i : Inv s tok cw rdr jc) (st : Step s s') (h : s.closed c = true) : s'.closed c = true := by
  cases st with
  | closeOne w ws c' a b d => by_cases e : c = c' <;> simp [e, h]
  | tickDraining cl a b d =>
    have := i.max1.1 b; rw [a] at this; cases this
  | stopAll cl a b =>
    have hx : s.maxWorkers ≠ -1 := fun hx => by have := i.max1.1 hx; rw [a] at this; cases this
    obtain ⟨cl', h1, h2⟩ := closeAll_some (fun w c hc => (i.cw1 w c hc).1) s.dobby s.closed i.dobby2 fun w hw => by
      obtain ⟨g1, g2⟩ := i.idle w ((i.dobby1 w).1 hw)
      exact ⟨g1, g2 hx⟩
    rw [h1] at b; cases b
    exact (h2 c).2 (.inl h)
  | _ => exact h

/-- A job stays in its channel while the goroutines do nothing. -/
theorem buf_keep (st : Step s s') (hg : s'.gor = s.gor) (hb : s.buf c = some j) : s'.buf c = some j := by
  cases st with
  | send i w' c' a1 a2 a3 a4 =>
    have : c ≠ c' := by rintro rfl; rw [hb] at a4; cases a4
    simpa [St.setJob, this] using hb
  | take k' w' c' j' a1 a2 =>
    exact absurd hg (by simp only [St.setGor]; exact upd_ne (by simp [a1]))
  | _ => exact hb

/-- A stopped pool hands out no workers. -/
theorem sending_old (st : Step s s') (hx : s.maxWorkers = -1) (h : s'.job j = .sending w) : s.job j = .sending w := by
  rcases job_step (j := j) st with g | ⟨_, g⟩ | ⟨g0, g | ⟨w', g⟩⟩ | ⟨_, g⟩
  · rw [← g]; exact h
  · rw [h] at g; cases g
  · rw [h] at g; cases g
  · cases st with
    | runReuse i ws w a b c => exact absurd hx b
    | runPooled i w p1 p2 a b c d e => exact absurd hx b
    | runFresh i a b c d => exact absurd hx b
    | call i a =>
      by_cases e : j = i
      · simp [St.setJob, e] at h
      · simpa [St.setJob, e] using h
    | runDraining i a b =>
      by_cases e : j = i
      · simp [St.setJob, e] at h
      · simpa [St.setJob, e] using h
    | runFull i a b =>
      by_cases e : j = i
      · simp [St.setJob, e] at h
      · simpa [St.setJob, e] using h
    | send i a b =>
      by_cases e : j = i
      · simp [St.setJob, e] at h
      · simpa [St.setJob, e] using h
    | _ => exact h
  · rw [h] at g; cases g

theorem recv_ready (hk : s.gor k = .recv w (some c)) (h : s.closed c = true ∨ ∃ j, s.buf c = some j) :
    Enabled (fun s => s.gor k) s := by
  cases hb : s.buf c with
  | some j => exact ⟨_, .take s k w c j hk hb, by simp [St.setGor, hk]⟩
  | none =>
    rcases h with h | ⟨j, h⟩
    · exact ⟨_, .rangeEnd s k w c hk hb h, by simp [St.setGor, hk]⟩
    · rw [hb] at h; cases h

/-- What is at rest in a stopped pool waits for a channel. -/
theorem rest_recv (hm : 0 < mx) (e : Exec mx p σ) (hf : Fair σ) (hx : ∀ m, n ≤ m → (σ m).maxWorkers = -1)
    (hr : ∀ m, n ≤ m → (σ m).gor = (σ n).gor) (hl : ((σ n).gor k).live = true) : ∃ w o, (σ n).gor k = .recv w o := by
  by_contra hc
  have same : ∀ m, n ≤ m → (σ m).gor k = (σ n).gor k := fun m h => by rw [hr m h]
  refine weakly (f := fun s => s.gor k) (hf.workers k) same fun m h => ?_
  cases hk : (σ n).gor k with
  | unborn => rw [hk] at hl; cases hl
  | dead => rw [hk] at hl; cases hl
  | recv w o => exact absurd ⟨w, o, hk⟩ hc
  | start w => exact ⟨_, .begin _ k w ((same m h).trans hk), by simp [St.setGor, same m h, hk]⟩
  | handling w c j => exact ⟨_, .handled _ k w c j ((same m h).trans hk), by simp [St.setGor, same m h, hk]⟩
  | stamp w c => exact ⟨_, .stamp _ k w c 0 ((same m h).trans hk), by simp [St.setGor, same m h, hk]⟩
  | free w c => exact ⟨_, .freeDraining _ k w c ((same m h).trans hk) (hx m h), by simp [St.setGor, same m h, hk]⟩
  | exiting => exact ⟨_, .exit _ k ((same m h).trans hk), by simp [St.setGor, same m h, hk]⟩

theorem gc_dead (st : Step s s') (h : s.gc = .dead) : s'.gc = .dead := by
  cases st with
  | tick now l a b d => rw [h] at a; cases a
  | tickDraining cl a b d => rfl
  | closeOne w ws c a b d => rw [h] at a; cases a
  | clearOne w ws a => rw [h] at a; cases a
  | putOne w ws a => rw [h] at a; cases a
  | collected a => rw [h] at a; cases a
  | stopSignal k' a b d => rw [h] at d; cases d
  | stopAll cl a b => rfl
  | _ => exact h

/-- What becomes of a `Stop` call. -/
theorem stop_step (st : Step s s') : s'.stop k = s.stop k ∨ s.stop k = .new ∨ s.stop k = .sending ∧ s'.stop k = .sent ∨
    s.stop k = .sent ∧ s'.stop k = .returned := by
  have key : ∀ {i : Nat} {q : StopPc} (P : Prop), (i = k → P) → (if k = i then q else s.stop k) = s.stop k ∨ P := fun {i q} P h => by
    by_cases e : k = i
    · exact .inr (h e.symm)
    · exact .inl (if_neg e)
  cases st with
  | stopCall i a b => exact key _ (by rintro rfl; exact .inl a)
  | stopNil i a b => exact key _ (by rintro rfl; exact .inl a)
  | stopSignal i a b d => exact key _ (by rintro rfl; exact .inr (.inl ⟨a, by simp [St.setStop]⟩))
  | stopClear i a => exact key _ (by rintro rfl; exact .inr (.inr ⟨a, by simp [St.setStop]⟩))
  | _ => exact .inl rfl

/-- How far the collector is from its `select`. -/
def far : GcPc → Nat
  | .closing ws => 3 * ws.length + 1
  | .clearing _ ws => 3 * ws.length + 3
  | .putting _ ws => 3 * ws.length + 2
  | _ => 0

theorem far_step (st : Step s s') (h1 : s.gc ≠ .idle) (h2 : s.gc ≠ .stopping) (h3 : s.gc ≠ .dead) :
    s'.gc = s.gc ∨ far s'.gc < far s.gc := by
  cases st with
  | tick now l a b d => exact absurd a h1
  | tickDraining cl a b d => exact absurd a h1
  | closeOne w ws c a b d => right; simp [a, far]; omega
  | clearOne w ws a => right; simp [a, far]
  | putOne w ws a => right; simp [a, far]
  | collected a => right; simp [a, far]
  | stopSignal k' a b d => exact absurd d h1
  | stopAll cl a b => exact absurd a h2
  | _ => exact .inl rfl

theorem gc_ready (i : Inv s tok cw rdr jc) (h1 : s.gc ≠ .idle) (h2 : s.gc ≠ .stopping) (h3 : s.gc ≠ .dead) :
    Enabled (fun s => s.gc) s := by
  cases h : s.gc with
  | idle => exact absurd h h1
  | stopping => exact absurd h h2
  | dead => exact absurd h h3
  | clearing w ws => exact ⟨_, .clearOne s w ws h, by simp [h]⟩
  | putting w ws => exact ⟨_, .putOne s w ws h, by simp [h]⟩
  | closing ws =>
    cases ws with
    | nil => exact ⟨_, .collected s h, by simp [h]⟩
    | cons w ws =>
      obtain ⟨g1, g2⟩ := i.gc3 w (by simp [h, GcPc.todo])
      obtain ⟨c, hc⟩ := Option.ne_none_iff_exists'.1 g1
      exact ⟨_, .closeOne s w ws c h hc (g2 c hc), by simp [h]⟩

/-- While nobody has stopped the pool its collector comes to its `select` again and again. -/
theorem idles (hm : 0 < mx) (e : Exec mx p σ) (hf : Fair σ) (h : ∀ m, n ≤ m → (σ m).gc ≠ .stopping ∧ (σ m).gc ≠ .dead) :
    ∃ m, n ≤ m ∧ (σ m).gc = .idle := by
  have key : ∀ d a, n ≤ a → far (σ a).gc = d → ∃ m, n ≤ m ∧ (σ m).gc = .idle := by
    intro d
    induction d using Nat.strongRecOn with
    | _ d ih =>
      intro a ha hd
      by_contra hc
      have no : ∀ m, n ≤ m → (σ m).gc ≠ .idle := fun m h1 h2 => hc ⟨m, h1, h2⟩
      have : ∃ m, a ≤ m ∧ (σ m).gc = (σ a).gc ∧ (σ (m + 1)).gc ≠ (σ m).gc := by
        by_contra hn
        have stay := moves (f := fun s => s.gc) hn
        refine weakly (f := fun s => s.gc) hf.collector stay fun m h1 => ?_
        obtain ⟨tok, cw, rdr, jc, i⟩ := inv_reach hm (e.reach m)
        exact gc_ready i (no m (by omega)) (h m (by omega)).1 (h m (by omega)).2
      obtain ⟨m, h1, h2, h3⟩ := this
      rcases e.next m with st | st
      · rcases far_step st (no m (by omega)) (h m (by omega)).1 (h m (by omega)).2 with g | g
        · exact h3 g
        · rw [h2, hd] at g
          exact hc (ih _ g (m + 1) (by omega) rfl)
      · exact h3 (by rw [st])
  exact key _ n (Nat.le_refl _) rfl

end Verif.PoolDrain
