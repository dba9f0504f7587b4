import Verif.GoPool.Step
/-!
# How many goroutines a pool has
-/
namespace Verif.GoPool
open Verif.Go

/-- A goroutine that has been started and has not ended. -/
def GorPc.live : GorPc → Bool
  | .unborn => false
  | .dead => false
  | _ => true

/-- `l` lists the live goroutines. -/
structure Cnt (mx : Int) (p : Nat) (s : St) (l : List Nat) : Prop where
  nodup : l.Nodup
  mem : ∀ k, k ∈ l ↔ (s.gor k).live = true
  len : s.workers = l.length
  max : s.maxWorkers = mx ∨ s.maxWorkers = -1
  le : s.workers ≤ Max.max mx p

variable {s s' : St} {tok : Nat → Loc} {cw rdr jc : Nat → Nat} {mx : Int} {p : Nat}

theorem Cnt.same {l : List Nat} (n : Cnt mx p s l) (hw : s'.workers = s.workers)
    (hx : s'.maxWorkers = s.maxWorkers ∨ s'.maxWorkers = -1)
    (hg : ∀ k, (s'.gor k).live = (s.gor k).live) : ∃ l', Cnt mx p s' l' := by
  obtain ⟨n1, n2, n3, n4, n5⟩ := n
  refine ⟨l, n1, fun k => by rw [hg]; exact n2 k, by rw [hw]; exact n3, ?_, by rw [hw]; exact n5⟩
  rcases hx with hx | hx
  · rw [hx]; exact n4
  · exact Or.inr hx

theorem Cnt.kill {l : List Nat} (n : Cnt mx p s l) {k : Nat} (hw : s'.workers = s.workers - 1) (hx : s'.maxWorkers = s.maxWorkers)
    (hk : (s.gor k).live = true) (hg : s'.gor = fun i => if i = k then .dead else s.gor i) : ∃ l', Cnt mx p s' l' := by
  obtain ⟨n1, n2, n3, n4, n5⟩ := n
  have hm := (n2 k).2 hk
  have hpos := List.length_pos_of_mem hm
  refine ⟨l.erase k, n1.erase k, fun i => ?_, ?_, by rw [hx]; exact n4, by omega⟩
  · rw [n1.mem_erase_iff, n2, hg]
    by_cases hi : i = k
    · simp [hi, GorPc.live]
    · simp [hi]
  · rw [hw, n3, List.length_erase_of_mem hm]; omega

theorem Cnt.spawn {l : List Nat} (n : Cnt mx p s l) {w : Nat} (hu : s.gor s.nextG = .unborn) (h1 : s.maxWorkers ≠ -1)
    (h3 : s.workers < s.maxWorkers) (hw : s'.workers = s.workers + 1) (hx : s'.maxWorkers = s.maxWorkers)
    (hg : s'.gor = fun i => if i = s.nextG then .start w else s.gor i) : ∃ l', Cnt mx p s' l' := by
  obtain ⟨n1, n2, n3, n4, n5⟩ := n
  refine ⟨s.nextG :: l, List.nodup_cons.2 ⟨fun h => ?_, n1⟩, fun i => ?_, by rw [hw, n3]; simp, by rw [hx]; exact n4, by omega⟩
  · have := (n2 _).1 h
    rw [hu] at this; cases this
  · rw [List.mem_cons, n2, hg]
    by_cases hi : i = s.nextG
    · simp [hi, GorPc.live]
    · simp [hi]

theorem cnt_step {l : List Nat} (i : Inv s tok cw rdr jc) (n : Cnt mx p s l) (st : Step s s') : ∃ l', Cnt mx p s' l' := by
  have i19 := i.gfresh s.nextG (Nat.le_refl _)
  have upd : ∀ (k : Nat) (q : GorPc), (s.gor k).live = true → q.live = true → ∀ x, ((if x = k then q else s.gor x).live) = (s.gor x).live := by
    intro k q h1 h2 x
    by_cases hx : x = k
    · subst hx; simp [h1, h2]
    · simp [hx]
  cases st with
  | runPooled j w p p' h h1 h2 h3 h4 => exact n.spawn i19 h1 h3 rfl rfl rfl
  | runFresh j h h1 h2 h3 => exact n.spawn i19 h1 h3 rfl rfl rfl
  | begin k w h => exact n.same rfl (Or.inl rfl) (upd _ _ (by rw [h]; rfl) rfl)
  | take k w c j h h1 => exact n.same rfl (Or.inl rfl) (upd _ _ (by rw [h]; rfl) rfl)
  | rangeEnd k w c h h1 h2 => exact n.same rfl (Or.inl rfl) (upd _ _ (by rw [h]; rfl) rfl)
  | handled k w c j h => exact n.same rfl (Or.inl rfl) (upd _ _ (by rw [h]; rfl) rfl)
  | stamp k w c t h => exact n.same rfl (Or.inl rfl) (upd _ _ (by rw [h]; rfl) rfl)
  | freeDraining k w c h h1 => exact n.kill rfl rfl (by rw [h]; rfl) rfl
  | freeBack k w c h h1 => exact n.same rfl (Or.inl rfl) (upd _ _ (by rw [h]; rfl) rfl)
  | exit k h => exact n.kill rfl rfl (by rw [h]; rfl) rfl
  | stopAll cl h h1 => exact n.same rfl (Or.inr rfl) (fun _ => rfl)
  | _ => exact n.same rfl (Or.inl rfl) (fun _ => rfl)

theorem cnt_init (t : Nat → Int) : Cnt mx p (init mx p t) (List.range p) := by
  refine ⟨List.nodup_range, fun k => ?_, by simp [init], Or.inl rfl, by simp [init]⟩
  by_cases h : k < p <;> simp [init, h, GorPc.live]

theorem cnt_reach (hm : 0 < mx) (r : Reach mx p s) : ∃ l, Cnt mx p s l := by
  induction r with
  | init t => exact ⟨_, cnt_init t⟩
  | step r st ih =>
    obtain ⟨l, n⟩ := ih
    obtain ⟨tok, cw, rdr, jc, i⟩ := inv_reach hm r
    exact cnt_step i n st

/-! ## The work left for the goroutines of a stopped pool -/

def GorPc.rank : GorPc → Nat
  | .start _ => 6
  | .recv _ _ => 5
  | .handling _ _ _ => 4
  | .stamp _ _ => 3
  | .free _ _ => 2
  | .exiting => 1
  | _ => 0

theorem sum_upd (g : Nat → Nat) (k v : Nat) (n : Nat) :
    ((List.range n).map (fun i => if i = k then v else g i)).sum + (if k < n then g k else 0)
      = ((List.range n).map g).sum + (if k < n then v else 0) := by
  induction n with
  | zero => simp
  | succ n ih =>
    rw [List.range_succ, List.map_append, List.map_append, List.sum_append, List.sum_append]
    simp only [List.map_cons, List.map_nil, List.sum_cons, List.sum_nil, Nat.add_zero]
    by_cases h1 : k < n
    · have : n ≠ k := by omega
      simp only [h1, if_true, this, if_false, show k < n + 1 by omega] at ih ⊢
      omega
    · by_cases h2 : k = n
      · subst h2; simp at ih ⊢; omega
      · have : n ≠ k := by omega
        simp only [h1, if_false, this, show ¬ k < n + 1 by omega] at ih ⊢
        omega

/-- The steps the goroutines of a stopped pool can still take. -/
def St.left (s : St) : Nat := ((List.range s.nextG).map (fun k => (s.gor k).rank)).sum

theorem left_upd {k : Nat} {q : GorPc} (hn : s'.nextG = s.nextG) (hg : s'.gor = fun i => if i = k then q else s.gor i)
    (hk : k < s.nextG) (hq : q.rank < (s.gor k).rank) : s'.left < s.left := by
  have := sum_upd (fun k => (s.gor k).rank) k q.rank s.nextG
  have e : (fun i => (s'.gor i).rank) = fun i => if i = k then q.rank else (s.gor i).rank := by
    funext i; rw [hg]; dsimp only; split <;> rfl
  unfold St.left
  rw [hn, e]
  simp only [hk, if_true] at this
  omega

/-- In a stopped pool a step either is no step of a worker goroutine or uses up some of the work left. -/
theorem left_step (i : Inv s tok cw rdr jc) (hx : s.maxWorkers = -1) (st : Step s s') :
    s'.maxWorkers = -1 ∧ ((s'.gor = s.gor ∧ s'.left = s.left) ∨ s'.left < s.left) := by
  have lt : ∀ k, s.gor k ≠ .unborn → k < s.nextG := fun k h => by
    by_contra hc; exact h (i.gfresh k (by omega))
  cases st with
  | runReuse j ws w h h1 h2 => exact absurd hx h1
  | runPooled j w p p' h h1 h2 h3 h4 => exact absurd hx h1
  | runFresh j h h1 h2 h3 => exact absurd hx h1
  | freeBack k w c h h1 => exact absurd hx h1
  | tick now l h h1 h2 => exact absurd hx h1
  | begin k w h => exact ⟨hx, Or.inr (left_upd rfl rfl (lt k (by simp [h])) (by rw [h]; simp [GorPc.rank]))⟩
  | take k w c j h h1 => exact ⟨hx, Or.inr (left_upd rfl rfl (lt k (by simp [h])) (by rw [h]; simp [GorPc.rank]))⟩
  | rangeEnd k w c h h1 h2 => exact ⟨hx, Or.inr (left_upd rfl rfl (lt k (by simp [h])) (by rw [h]; simp [GorPc.rank]))⟩
  | handled k w c j h => exact ⟨hx, Or.inr (left_upd rfl rfl (lt k (by simp [h])) (by rw [h]; simp [GorPc.rank]))⟩
  | stamp k w c t h => exact ⟨hx, Or.inr (left_upd rfl rfl (lt k (by simp [h])) (by rw [h]; simp [GorPc.rank]))⟩
  | freeDraining k w c h h1 => exact ⟨hx, Or.inr (left_upd rfl rfl (lt k (by simp [h])) (by rw [h]; simp [GorPc.rank]))⟩
  | exit k h => exact ⟨hx, Or.inr (left_upd rfl rfl (lt k (by simp [h])) (by rw [h]; simp [GorPc.rank]))⟩
  | stopAll cl h h1 => exact ⟨rfl, Or.inl ⟨rfl, rfl⟩⟩
  | _ => exact ⟨hx, Or.inl ⟨rfl, rfl⟩⟩

end Verif.GoPool
