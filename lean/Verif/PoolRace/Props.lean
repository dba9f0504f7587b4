import Verif.PoolRace.Lemmas
/-!
# C103: the pool of goroutines has no data races
-/
namespace Verif.PoolRace
open Verif.GoPool

variable {mx : Int} {p : Nat} {s : St}

/-- The full statement of C103: no execution has a race. -/
def C103_full : Prop := ∀ (mx : Int) (p : Nat) (s : St) (a b : Actor) (v : Var), 0 < mx → Reach mx p s → ¬ Race s a b v

/-- **C103** For every pool, with preheated workers or not, only two kinds of races are possible: between two `Stop` calls,
and on the field `ch` of a worker whose goroutine has not started yet. -/
theorem C103_only (hm : 0 < mx) (r : Reach mx p s) {a b : Actor} {v : Var} (h : Race s a b v) :
    (∃ k k', a = .stop k ∧ b = .stop k' ∧ v = .stop) ∨
    ∃ k w, (a = .worker k ∨ b = .worker k) ∧ v = .ch w ∧ s.gor k = .start w := by
  obtain ⟨tok, cw, rdr, jc, i⟩ := inv_reach hm r
  have n := told_reach r
  obtain ⟨hne, wa, la, wb, lb, ua, ub, hw, hl⟩ := h
  rcases uses_tok i ua with ⟨k, w, e1, e2, e3, _⟩ | ⟨e, ha⟩ | ⟨w, e1, ha⟩
  · exact .inr ⟨k, w, .inl e1, e2, e3⟩
  · subst e
    rcases uses_tok i ub with ⟨k, w, e1, e2, e3, _⟩ | ⟨_, hb⟩ | ⟨w, e1, hb⟩
    · cases e2
    · left
      rcases ha with ⟨k, rfl⟩ | ⟨rfl, ga, rfl⟩ <;> rcases hb with ⟨k', rfl⟩ | ⟨rfl, gb, rfl⟩
      · exact ⟨k, k', rfl, rfl, rfl⟩
      · rcases hw with rfl | hw
        · obtain ⟨k'', _, h'⟩ := uses_stop ua
          have := n k'' h'; rw [gb] at this; simp at this
        · cases hw
      · rcases hw with hw | rfl
        · cases hw
        · obtain ⟨k'', _, h'⟩ := uses_stop ub
          have := n k'' h'; rw [ga] at this; simp at this
      · exact absurd rfl hne
    · rcases e1 with e1 | e1 <;> cases e1
  · rcases uses_tok i ub with ⟨k, w, e1, e2, e3, _⟩ | ⟨e, hb⟩ | ⟨w', e1', hb⟩
    · exact .inr ⟨k, w, .inr e1, e2, e3⟩
    · subst e; rcases e1 with e1 | e1 <;> cases e1
    · exfalso
      have e : w' = w := by
        rcases e1 with e1 | e1 <;> rcases e1' with e1' | e1' <;> rw [e1] at e1' <;> cases e1' <;> rfl
      subst e
      have hf : w' = s.nextW → tok w' = .none := fun h => i.fresh _ (Nat.le_of_eq h.symm)
      rcases ha with ⟨ta, l1, ja, ea⟩ | ⟨ta, l1, ja, ea⟩ | ⟨ja, ta, ea⟩ | ⟨ka, ta, ea⟩ | ⟨ta, ea⟩ | ⟨ta, ea⟩ <;>
        rcases hb with ⟨tb, l2, jb, eb⟩ | ⟨tb, l2, jb, eb⟩ | ⟨jb, tb, eb⟩ | ⟨kb, tb, eb⟩ | ⟨tb, eb⟩ | ⟨tb, eb⟩ <;>
        first
        | exact hl ⟨l1, l2⟩
        | (have := hf ta; rw [tb] at this; cases this)
        | (have := hf tb; rw [ta] at this; cases this)
        | (rw [ta] at tb; cases tb; exact hne (ea.trans eb.symm))
        | (rw [ta] at tb; cases tb)

/-- **C103** (partial) A pool without preheated workers has no races except between two `Stop` calls. Missing: pools with
preheated workers, and concurrent `Stop` calls, for which it is false. -/
theorem C103_partial (hm : 0 < mx) (r : Reach mx 0 s) {a b : Actor} {v : Var} (hs : ¬ ∃ k k', a = .stop k ∧ b = .stop k') :
    ¬ Race s a b v := by
  intro h
  rcases C103_only hm r h with ⟨k, k', e1, e2, _⟩ | ⟨k, w, hk, rfl, g⟩
  · exact hs ⟨k, k', e1, e2⟩
  obtain ⟨tok, cw, rdr, jc, rd, jb, i, n⟩ := fr_reach hm r
  have hq : (∃ j, tok w = .run j) ∨ ∃ c j, tok w = .chan c j := by
    rcases (n.start k w g).2 with h | h
    · exact .inl ⟨_, (i.run _ _).1 h⟩
    · unfold St.queued at h
      cases hc : s.ch w with
      | none => rw [hc] at h; cases h
      | some c =>
        rw [hc] at h
        have := i.chan2 c _ h
        rw [(i.cw1 w c hc).1] at this
        exact .inr ⟨_, _, this⟩
  obtain ⟨hne, wa, la, wb, lb, ua, ub, hw, hl⟩ := h
  have : tok w = .pool ∨ tok w = .none ∨ tok w = .gc := by
    rcases hw with rfl | rfl
    · exact uses_ch i ua
    · exact uses_ch i ub
  rcases hq with ⟨j, e⟩ | ⟨c, j, e⟩ <;> rw [e] at this <;> simp at this

/-- **C103** refuted: the collector clears the field `ch` of a preheated worker whose goroutine is about to read it. -/
theorem C103_refuted : ¬ C103_full := fun h => by
  have r0 : Reach 1 1 (init 1 1 (fun _ => 0)) := .init _
  have r1 := r0.step (.tick _ 1 1 rfl (by simp [init]) (by simp [init, cut, cutLoop]))
  have r2 := r1.step (.closeOne _ 0 [] 0 (by simp [init]) (by simp [init]) (by simp [init]))
  exact h 1 1 _ .collector (.worker 0) (.ch 0) (by decide) r2
    ⟨by simp, true, false, false, false, .clearCh 0 [] rfl, .begin 0 0 (by simp [init]), .inl rfl, by simp⟩

/-- **C103** refuted for every pool: two `Stop` calls race on `pool.stop`. -/
theorem C103_refuted_stop (mx : Int) (p : Nat) : ∃ s, Reach mx p s ∧ Race s (.stop 0) (.stop 1) .stop := by
  have r0 : Reach mx p (init mx p (fun _ => 0)) := .init _
  have r1 := r0.step (.stopCall _ 0 rfl rfl)
  have r2 := r1.step (.stopSignal _ 0 (by simp [St.setStop]) rfl rfl)
  exact ⟨_, r2, by simp, true, false, false, false, .stopClear 0 (by simp [St.setStop]),
    .stopCall 1 (by simp [St.setStop, init]), .inl rfl, by simp⟩

/-- Non-vacuity: in a pool without preheated workers the collector writes the fields of a worker while another `Run`
call is about to read those of another worker. -/
example : ∃ s, Reach 2 0 s ∧ Uses s .collector (.ch 0) true false ∧ Uses s (.run 1) (.ch 1) false false := by
  have r0 : Reach 2 0 (init 2 0 (fun _ => 0)) := .init _
  have r1 := r0.step (.call _ 0 rfl)
  have r2 := r1.step (.runFresh _ 0 (by simp [St.setJob]) (by simp [St.setJob, init]) rfl (by simp [St.setJob, init]))
  have r3 := r2.step (.send _ 0 0 0 (by simp [St.setJob, St.spawn, init]) (by simp [St.setJob, St.spawn, init]) rfl rfl)
  have r4 := r3.step (.begin _ 0 0 (by simp [St.setJob, St.spawn, init]))
  have r5 := r4.step (.take _ 0 0 0 0 (by simp [St.setJob, St.setGor, St.spawn, init]) (by simp [St.setJob, St.setGor, St.spawn, init]))
  have r6 := r5.step (.handled _ 0 0 0 0 (by simp [St.setGor]))
  have r7 := r6.step (.stamp _ 0 0 0 5 (by simp [St.setGor]))
  have r8 := r7.step (.freeBack _ 0 0 0 (by simp [St.setGor]) (by simp [St.setGor, St.setJob, St.spawn, init]))
  have r9 := r8.step (.tick _ 6 1 rfl (by simp [St.setGor, St.setJob, St.spawn, init]) (by simp [St.setGor, St.setJob, St.spawn, init, cut, cutLoop]))
  have r10 := r9.step (.call _ 1 (by simp [St.setGor, St.setJob, St.spawn, init]))
  have r11 := r10.step (.runFresh _ 1 (by simp [St.setJob]) (by simp [St.setGor, St.setJob, St.spawn, init])
    (by simp [St.setGor, St.setJob, St.spawn, init]) (by simp [St.setGor, St.setJob, St.spawn, init]))
  have r12 := r11.step (.closeOne _ 0 [] 0 (by simp [St.setGor, St.setJob, St.spawn, init])
    (by simp [St.setGor, St.setJob, St.spawn, init]) (by simp [St.setGor, St.setJob, St.spawn, init]))
  exact ⟨_, r12, .clearCh 0 [] rfl, .send 1 1 (by simp [St.setGor, St.setJob, St.spawn, init])⟩

end Verif.PoolRace
