import Verif.PoolSerial.Spec
import Verif.GoPool.Props
/-!
# Lemmas for C134
-/
namespace Verif.PoolSerial
open Verif.GoPool

variable {s s' : St} {mx : Int} {p : Nat} {tok : Nat → Loc} {cw rdr jc : Nat → Nat}

/-- The goroutine that has the job or is going to get it. -/
def On (s : St) (tok : Nat → Loc) (rdr : Nat → Nat) (j k : Nat) : Prop :=
  (∃ w, (tok w = .run j ∨ ∃ c, tok w = .chan c j) ∧ k = rdr w ∧ (s.gor k = .start w ∨ s.gor k = .recv w (s.ch w))) ∨
  ∃ w c, s.gor k = .handling w c j

theorem on_of (i : Inv s tok cw rdr jc) {j : Nat} (h : InProgress s j) : ∃ k, On s tok rdr j k ∧ (s.gor k).live = true := by
  rcases h with ⟨w, h⟩ | ⟨c, h⟩ | ⟨k, w, c, h⟩
  · have ht := (i.run j w).1 h
    have hr := i.reader w (by rw [ht]; rfl) (fun _ => by rw [ht]; simp)
    refine ⟨rdr w, .inl ⟨w, .inl ht, rfl, hr⟩, ?_⟩
    rcases hr with hr | hr <;> rw [hr] <;> rfl
  · have ht := i.chan2 c j h
    have hr := i.reader (cw c) (by rw [ht]; rfl) (fun _ => by rw [ht]; simp)
    refine ⟨rdr (cw c), .inl ⟨cw c, .inr ⟨c, ht⟩, rfl, hr⟩, ?_⟩
    rcases hr with hr | hr <;> rw [hr] <;> rfl
  · exact ⟨k, .inr ⟨w, c, h⟩, by rw [h]; rfl⟩

theorem on_unique {j j' k : Nat} (h : On s tok rdr j k) (h' : On s tok rdr j' k) : j = j' := by
  rcases h with ⟨w, ht, -, hg⟩ | ⟨w, c, hg⟩ <;> rcases h' with ⟨w', ht', -, hg'⟩ | ⟨w', c', hg'⟩
  · have hw : w = w' := by
      rcases hg with hg | hg <;> rcases hg' with hg' | hg' <;> rw [hg] at hg' <;> cases hg' <;> rfl
    subst hw
    rcases ht with ht | ⟨c, ht⟩ <;> rcases ht' with ht' | ⟨c', ht'⟩ <;> rw [ht] at ht' <;> cases ht' <;> rfl
  · rcases hg with hg | hg <;> rw [hg] at hg' <;> cases hg'
  · rcases hg' with hg' | hg' <;> rw [hg] at hg' <;> cases hg'
  · rw [hg] at hg'; cases hg'; rfl

theorem at_most (hm : 0 < mx) (r : Reach mx p s) : AtMost s.workers s := by
  intro l hl hp
  obtain ⟨tok, cw, rdr, jc, i⟩ := inv_reach hm r
  obtain ⟨g, n⟩ := cnt_reach hm r
  rw [n.len]
  have hex : ∀ j : Nat, ∃ k, InProgress s j → On s tok rdr j k ∧ (s.gor k).live = true := fun j => by
    by_cases h : InProgress s j
    · obtain ⟨k, hk⟩ := on_of i h; exact ⟨k, fun _ => hk⟩
    · exact ⟨0, fun h' => absurd h' h⟩
  choose f hf using hex
  have hnd : (l.map f).Nodup := by
    refine List.Nodup.map_on ?_ hl
    intro x hx y hy e
    have h1 := (hf x (hp x hx)).1
    have h2 := (hf y (hp y hy)).1
    rw [e] at h1
    exact on_unique h1 h2
  have hsub : l.map f ⊆ g := by
    intro k hk
    obtain ⟨j, hj, rfl⟩ := List.mem_map.1 hk
    exact (n.mem _).2 (hf j (hp j hj)).2
  have := (hnd.subperm hsub).length_le
  rw [List.length_map] at this
  exact_mod_cast this

/-- A job is handed to the handler only after its `Run` returned true. -/
def Hand (s : St) : Prop := ∀ k w c j, s.gor k = .handling w c j → s.job j = .accepted

theorem acc_step (st : Step s s') {j : Nat} (h : s.job j = .accepted) : s'.job j = .accepted := by
  have other : ∀ {j' : Nat} {q q' : JobPc}, s.job j' = q → q ≠ .accepted → (if j = j' then q' else s.job j) = .accepted :=
    fun {j' q q'} h1 h2 => by
      have : j ≠ j' := by rintro rfl; exact h2 (h1.symm.trans h)
      rw [if_neg this]; exact h
  cases st with
  | call j' a => exact other a (by simp)
  | runDraining j' a _ => exact other a (by simp)
  | runReuse j' _ _ a _ _ => exact other a (by simp)
  | runPooled j' _ _ _ a _ _ _ _ => exact other a (by simp)
  | runFresh j' a _ _ _ => exact other a (by simp)
  | runFull j' a _ _ _ => exact other a (by simp)
  | send j' _ _ a _ _ _ => exact other a (by simp)
  | _ => exact h

theorem hand_step (i : Inv s tok cw rdr jc) (h : Hand s) (st : Step s s') : Hand s' := by
  have acc := fun j => acc_step st (j := j)
  intro k w c j hk
  refine acc j ?_
  have other : ∀ {k' : Nat} {q : GorPc}, (if k = k' then q else s.gor k) = .handling w c j → (∀ a b d, q ≠ .handling a b d) →
      s.gor k = .handling w c j := fun {k' q} h1 h2 => by
    by_cases e : k = k'
    · rw [if_pos e] at h1; exact absurd h1 (h2 _ _ _)
    · rw [if_neg e] at h1; exact h1
  cases st with
  | runPooled => exact h k w c j (other hk (by simp))
  | runFresh => exact h k w c j (other hk (by simp))
  | «begin» => exact h k w c j (other hk (by simp))
  | take k' w' c' j' a1 a2 =>
    by_cases e : k = k'
    · subst e
      simp only [St.setGor, if_true, GorPc.handling.injEq] at hk
      obtain ⟨-, -, rfl⟩ := hk
      exact (i.job1 c' j' a2).1
    · simp only [St.setGor, if_neg e] at hk
      exact h k w c j hk
  | rangeEnd => exact h k w c j (other hk (by simp))
  | handled => exact h k w c j (other hk (by simp))
  | stamp => exact h k w c j (other hk (by simp))
  | freeDraining => exact h k w c j (other hk (by simp))
  | freeBack => exact h k w c j (other hk (by simp))
  | exit => exact h k w c j (other hk (by simp))
  | _ => exact h k w c j hk

theorem hand_reach (hm : 0 < mx) (r : Reach mx p s) : Hand s := by
  induction r with
  | init t =>
    intro k w c j h
    simp only [init] at h
    split at h <;> cases h
  | step r st ih =>
    obtain ⟨tok, cw, rdr, jc, i⟩ := inv_reach hm r
    exact hand_step i ih st

/-- The steps in which `Run` takes a job on leave the other jobs where they are. -/
theorem takes_keeps (hm : 0 < mx) (r : Reach mx p s) {i j : Nat} (t : TakesOn s s' j) (h : InProgress s i) :
    i ≠ j ∧ InProgress s' i ∧ InProgress s' j := by
  obtain ⟨st, hj, w, hw⟩ := t
  obtain ⟨tok, cw, rdr, jc, inv⟩ := inv_reach hm r
  have hne : i ≠ j := by
    rintro rfl
    rcases h with ⟨w, h⟩ | ⟨c, h⟩ | ⟨k, w, c, h⟩
    · rw [hj] at h; cases h
    · have := (inv.job1 c i h).1; rw [hj] at this; cases this
    · have := hand_reach hm r k w c i h; rw [hj] at this; cases this
  refine ⟨hne, ?_, .inl ⟨w, hw⟩⟩
  have keep : ∀ {t : St}, t.job i = s.job i → t.buf = s.buf → (∀ k w c, s.gor k = .handling w c i → t.gor k = .handling w c i) →
      InProgress t i := by
    intro t h1 h2 h3
    rcases h with ⟨w, h⟩ | ⟨c, h⟩ | ⟨k, w, c, h⟩
    · exact .inl ⟨w, by rw [h1]; exact h⟩
    · exact .inr (.inl ⟨c, by rw [h2]; exact h⟩)
    · exact .inr (.inr ⟨k, w, c, h3 k w c h⟩)
  have fresh : ∀ k w c q, s.gor k = .handling w c i → (if k = s.nextG then q else s.gor k) = .handling w c i := by
    intro k w c q hk
    have : k ≠ s.nextG := by
      rintro rfl
      rw [inv.gfresh _ (Nat.le_refl _)] at hk; cases hk
    rw [if_neg this]; exact hk
  cases st with
  | runReuse j' ws w' a1 a2 a3 =>
    by_cases e : j = j'
    · subst e; exact keep (by simp [St.setJob, hne]) rfl (fun _ _ _ h => h)
    · simp [St.setJob, e, hj] at hw
  | runPooled j' w' p1 p2 a1 a2 a3 a4 a5 =>
    by_cases e : j = j'
    · subst e; exact keep (by simp [St.setJob, St.spawn, hne]) rfl (fun k w c h => fresh k w c _ h)
    · simp [St.setJob, St.spawn, e, hj] at hw
  | runFresh j' a1 a2 a3 a4 =>
    by_cases e : j = j'
    · subst e; exact keep (by simp [St.setJob, St.spawn, hne]) rfl (fun k w c h => fresh k w c _ h)
    · simp [St.setJob, St.spawn, e, hj] at hw
  | call j' a1 =>
    by_cases e : j = j'
    · subst e; rw [hj] at a1; cases a1
    · simp [St.setJob, e, hj] at hw
  | runDraining j' a1 a2 =>
    by_cases e : j = j'
    · subst e; simp [St.setJob] at hw
    · simp [St.setJob, e, hj] at hw
  | runFull j' a1 a2 a3 a4 =>
    by_cases e : j = j'
    · subst e; simp [St.setJob] at hw
    · simp [St.setJob, e, hj] at hw
  | send j' w' c' a1 a2 a3 a4 =>
    by_cases e : j = j'
    · subst e; simp [St.setJob] at hw
    · simp [St.setJob, e, hj] at hw
  | _ => simp [St.setGor, St.setStop, hj] at hw

end Verif.PoolSerial
