import Verif.PoolRace.Spec
import Verif.GoPool.Lemmas
/-!
# Which uses can meet
-/
namespace Verif.PoolRace
open Verif.GoPool

variable {mx : Int} {p : Nat} {s s' : St} {tok : Nat → Loc} {cw rdr jc rd jb : Nat → Nat}

/-- Once a `Stop` call got past its send, the collector no longer looks at `pool.stop`. -/
def Told (s : St) : Prop := ∀ k, s.stop k = .sent → s.gc = .stopping ∨ s.gc = .dead

theorem told_step (n : Told s) (st : Step s s') : Told s' := by
  intro k hk
  cases st with
  | stopSignal k' h h1 h2 => exact Or.inl rfl
  | stopAll cl h h1 => exact Or.inr rfl
  | stopCall k' h h1 =>
    simp only [St.setStop] at hk ⊢
    by_cases e : k = k'
    · simp [e] at hk
    · exact n k (by simpa [e] using hk)
  | stopNil k' h h1 =>
    simp only [St.setStop] at hk ⊢
    by_cases e : k = k'
    · simp [e] at hk
    · exact n k (by simpa [e] using hk)
  | stopClear k' h =>
    simp only [St.setStop] at hk ⊢
    by_cases e : k = k'
    · simp [e] at hk
    · exact n k (by simpa [e] using hk)
  | tick now l h h1 h2 => have := n k hk; rw [h] at this; simp at this
  | tickDraining cl h h1 h2 => exact Or.inr rfl
  | closeOne w ws c h h1 h2 => have := n k hk; rw [h] at this; simp at this
  | clearOne w ws h => have := n k hk; rw [h] at this; simp at this
  | putOne w ws h => have := n k hk; rw [h] at this; simp at this
  | collected h => have := n k hk; rw [h] at this; simp at this
  | _ => exact n k hk

theorem told_reach (r : Reach mx p s) : Told s := by
  induction r with
  | init t => intro k hk; simp [init] at hk
  | step _ st ih => exact told_step ih st

/-- Where a worker is whose field is about to be used. -/
theorem uses_tok (i : Inv s tok cw rdr jc) {a : Actor} {v : Var} {wr l : Bool} (u : Uses s a v wr l) :
    (∃ k w, a = .worker k ∧ v = .ch w ∧ s.gor k = .start w ∧ wr = false) ∨ (v = .stop ∧ ((∃ k, a = .stop k) ∨ a = .collector ∧ s.gc = .idle ∧ wr = false)) ∨
    ∃ w, (v = .ch w ∨ v = .tt w) ∧
      ((tok w = .pool ∧ l = true ∧ ∃ j, a = .run j) ∨ (w = s.nextW ∧ l = true ∧ ∃ j, a = .run j) ∨
       (∃ j, tok w = .run j ∧ a = .run j) ∨ (∃ k, tok w = .busy k ∧ a = .worker k) ∨
       (tok w = .dobby ∧ a = .collector) ∨ (tok w = .gc ∧ a = .collector)) := by
  cases u with
  | runPooled j w _ _ _ _ h => exact .inr (.inr ⟨w, .inl rfl, .inl ⟨i.pool1 w h, rfl, j, rfl⟩⟩)
  | runFresh j => exact .inr (.inr ⟨s.nextW, .inl rfl, .inr (.inl ⟨rfl, rfl, j, rfl⟩)⟩)
  | send j w h => exact .inr (.inr ⟨w, .inl rfl, .inr (.inr (.inl ⟨j, (i.run j w).1 h, rfl⟩))⟩)
  | begin k w h => exact .inl ⟨k, w, rfl, rfl, h, rfl⟩
  | stamp k w c h =>
    exact .inr (.inr ⟨w, .inr rfl, .inr (.inr (.inr (.inl ⟨k, (i.busy1 k w c (by rw [h]; rfl)).1, rfl⟩)))⟩)
  | select h => exact .inr (.inl ⟨rfl, .inr ⟨rfl, h, rfl⟩⟩)
  | tick w _ _ h => exact .inr (.inr ⟨w, .inr rfl, .inr (.inr (.inr (.inr (.inl ⟨(i.dobby1 w).1 h, rfl⟩))))⟩)
  | tickDraining w _ _ h => exact .inr (.inr ⟨w, .inl rfl, .inr (.inr (.inr (.inr (.inl ⟨(i.dobby1 w).1 h, rfl⟩))))⟩)
  | close w ws h =>
    exact .inr (.inr ⟨w, .inl rfl, .inr (.inr (.inr (.inr (.inr ⟨(i.gc1 w).1 (by rw [h]; simp [GcPc.held]), rfl⟩))))⟩)
  | clearTt w ws h =>
    exact .inr (.inr ⟨w, .inr rfl, .inr (.inr (.inr (.inr (.inr ⟨(i.gc1 w).1 (by rw [h]; simp [GcPc.held]), rfl⟩))))⟩)
  | clearCh w ws h =>
    exact .inr (.inr ⟨w, .inl rfl, .inr (.inr (.inr (.inr (.inr ⟨(i.gc1 w).1 (by rw [h]; simp [GcPc.held]), rfl⟩))))⟩)
  | stopAll w _ h => exact .inr (.inr ⟨w, .inl rfl, .inr (.inr (.inr (.inr (.inl ⟨(i.dobby1 w).1 h, rfl⟩))))⟩)
  | stopCall k => exact .inr (.inl ⟨rfl, .inl ⟨k, rfl⟩⟩)
  | stopSend k => exact .inr (.inl ⟨rfl, .inl ⟨k, rfl⟩⟩)
  | stopClear k => exact .inr (.inl ⟨rfl, .inl ⟨k, rfl⟩⟩)

/-- A write of `pool.stop` comes from a `Stop` call after its send. -/
theorem uses_stop {a : Actor} {l : Bool} (u : Uses s a .stop true l) : ∃ k, a = .stop k ∧ s.stop k = .sent := by
  cases u with
  | stopClear k h => exact ⟨k, rfl, h⟩

/-- A write of `ch` is for a worker in the `sync.Pool`, a new worker, or one the collector holds. -/
theorem uses_ch (i : Inv s tok cw rdr jc) {a : Actor} {w : Nat} {l : Bool} (u : Uses s a (.ch w) true l) :
    tok w = .pool ∨ tok w = .none ∨ tok w = .gc := by
  cases u with
  | runPooled j _ _ _ _ _ h => exact .inl (i.pool1 w h)
  | runFresh j => exact .inr (.inl (i.fresh _ (Nat.le_refl _)))
  | clearCh _ ws h => exact .inr (.inr ((i.gc1 w).1 (by rw [h]; simp [GcPc.held])))

end Verif.PoolRace
