import Verif.CopyVal.Lemmas
/-!
# C162: copies of slice stacks and lists
-/
namespace Verif.CopyVal
open Verif.Go Verif.SliceC

variable {T : Type} [Inhabited T]

/-! ## Copies disturb each other -/

/-- A stack is copied, the original pops and pushes: the copy shows the new element. -/
def popPush : List (Cmd Nat) :=
  [.call 0 (.stack (.push 1 0)), .copy 0 1, .call 0 (.stack .pop), .call 0 (.stack (.push 2 0)), .call 1 (.stack .peek)]

theorem popPush_run : run (start ⟨fun _ _ => 0, 0⟩) popPush = [.bool true, .unit, .val 1, .bool true, .val 2] := by decide

/-- Both the original and the copy push: the original shows the element of the copy. -/
theorem C162_two_pushes : run (start ⟨fun _ _ => 0, 0⟩) [.call 0 (.stack (.push 1 3)), .copy 0 1, .call 0 (.stack (.push 2 0)),
    .call 1 (.stack (.push 3 0)), .call 0 (.stack .peek)] = [.bool true, .unit, .bool true, .bool true, .val 3] := by decide

/-- `Remove` on a list moves the elements of its copies; the copy keeps its length and shows the last element twice. -/
theorem C162_remove : run (start ⟨fun _ _ => 0, 0⟩) [.call 0 (.list (.append 1 3)), .call 0 (.list (.append 2 0)), .call 0 (.list (.append 3 0)),
    .copy 0 1, .call 0 (.list (.remove 0)), .call 1 (.list (.iterate fun _ => true))] =
    [.unit, .unit, .unit, .unit, .val 1, .vals [2, 3, 3]] := by decide

/-- **C162, refuted.** -/
theorem C162_refuted : ¬ C162_full := by
  intro h
  have := h Nat ⟨fun _ _ => 0, 0⟩ popPush (by intro c hc; simp [popPush] at hc; rcases hc with rfl | rfl | rfl | rfl | rfl <;> trivial) (by decide)
  rw [popPush_run] at this
  cases this with
  | call _ h1 => cases h1 with
    | copy h2 => cases h2 with
      | call _ h3 => cases h3 with
        | call _ h4 => cases h4 with
          | call h5 _ => exact absurd (show (Res.val 2 : Res Nat) = .val 1 from h5) (by decide)

/-! ## What holds -/

/-- **C162 (partial).** If calls write only where no other copy has an element, every variable behaves as if it had a value of its own,
whatever capacities `append` chooses. Missing: programs that are not `Careful` (`C162_refuted`). -/
theorem C162_partial (h : Hp T) (cs : List (Cmd T)) (ho : ∀ c ∈ cs, CmdOk c) (hs : (cs.length : Int) < 2 ^ 63 - 1)
    (hc : Careful (fun _ => []) id cs) : Values (fun _ => []) cs (run (start h) cs) :=
  run_values (start_inv h) cs ho 0 (fun _ => Nat.le_refl _) (by simpa using hs) hc

/-- A call that only adds at the end, or only reads. -/
def Adds : Meth T → Prop
  | .stack .pop => False
  | .list (.insert _ _ _) => False
  | .list (.remove _) => False
  | _ => True

/-- A call that writes nothing. -/
def Takes : Meth T → Prop
  | .stack (.push _ _) => False
  | .list (.append _ _) => False
  | .list (.insert _ _ _) => False
  | .list (.remove _) => False
  | _ => True

/-- Variable 0 only grows; the others are copies of it or of each other that are only read and popped. -/
def Log : Cmd T → Prop
  | .copy _ j => j ≠ 0
  | .call 0 m => Adds m
  | .call _ m => Takes m

omit [Inhabited T] in
theorem adds_after {m : Meth T} (h : Adds m) (l : List T) : l.length ≤ (after l m).length ∧ ∀ p, writesAt l m = some p → p = l.length := by
  cases m with
  | stack o =>
    cases o with
    | pop => exact h.elim
    | push v g => exact ⟨by simp [after, stackSpec], fun p hp => by simpa [writesAt] using hp.symm⟩
    | _ => exact ⟨by simp [after, stackSpec], fun p hp => by simp [writesAt] at hp⟩
  | list o =>
    cases o with
    | insert i v g => exact h.elim
    | remove i => exact h.elim
    | append v g => exact ⟨by simp [after], fun p hp => by simpa [writesAt] using hp.symm⟩
    | _ => exact ⟨by simp [after], fun p hp => by simp [writesAt] at hp⟩

omit [Inhabited T] in
theorem takes_after {m : Meth T} (h : Takes m) (l : List T) : (after l m).length ≤ l.length ∧ writesAt l m = none := by
  cases m with
  | stack o =>
    cases o with
    | push v g => exact h.elim
    | pop =>
      refine ⟨?_, rfl⟩
      have : ∀ q : List T, (stackSpec q .pop).1.length ≤ q.length := by intro q; cases q <;> simp [stackSpec]
      have h := this l.reverse
      simpa [after] using h
    | _ => exact ⟨by simp [after, stackSpec], rfl⟩
  | list o =>
    cases o with
    | insert i v g => exact h.elim
    | remove i => exact h.elim
    | append v g => exact h.elim
    | _ => exact ⟨by simp [after], rfl⟩

omit [Inhabited T] in
theorem log_careful (cs : List (Cmd T)) (hl : ∀ c ∈ cs, Log c) : ∀ (val : Nat → List T) (fam : Nat → Nat), (∀ j, (val j).length ≤ (val 0).length) →
    Careful val fam cs := by
  induction cs with
  | nil => intro _ _ _; trivial
  | cons c cs ih =>
    intro val fam hv
    have ih' := ih (fun c h => hl c (List.mem_cons_of_mem _ h))
    have h0 := hl c List.mem_cons_self
    cases c with
    | copy i j =>
      refine ih' _ _ (fun k => ?_)
      have hj : (0 : Nat) ≠ j := Ne.symm h0
      rw [upd_ne val (val i) hj]
      unfold upd; split
      · exact hv i
      · exact hv k
    | call i m =>
      by_cases e : i = 0
      · subst e
        obtain ⟨h1, h2⟩ := adds_after (m := m) h0 (val 0)
        refine ⟨fun p hp j _ _ => by rw [h2 p hp]; exact hv j, ih' _ _ (fun k => ?_)⟩
        rw [upd_same]
        unfold upd; split
        · exact Nat.le_refl _
        · exact Nat.le_trans (hv k) h1
      · have ht : Takes m := by
          cases i with
          | zero => exact absurd rfl e
          | succ i => exact h0
        obtain ⟨h1, h2⟩ := takes_after ht (val i)
        refine ⟨(fun p hp => absurd (h2.symm.trans hp) (by simp)), ih' _ _ (fun k => ?_)⟩
        rw [upd_ne val _ (Ne.symm e)]
        unfold upd; split
        · exact Nat.le_trans h1 (hv i)
        · exact hv k

/-- **C162, snapshots.** Copies taken at any time of a stack or list that only grows are snapshots: they can be read and popped while the
original goes on growing. -/
theorem C162_snapshots (h : Hp T) (cs : List (Cmd T)) (hs : (cs.length : Int) < 2 ^ 63 - 1) (hl : ∀ c ∈ cs, Log c) :
    Values (fun _ => []) cs (run (start h) cs) := by
  refine C162_partial h cs (fun c hc => ?_) hs (log_careful cs hl _ _ (fun _ => Nat.le_refl _))
  have h0 := hl c hc
  cases c with
  | copy i j => trivial
  | call i m =>
    cases m with
    | stack o => trivial
    | list o =>
      cases o with
      | insert k v g => cases i <;> exact h0.elim
      | remove k => cases i <;> exact h0.elim
      | _ => trivial

/-- A snapshot, more pushes, the snapshot read and popped. -/
def snapCase : List (Cmd Nat) := [.call 0 (.stack (.push 1 3)), .copy 0 1, .call 0 (.stack (.push 2 0)), .call 1 (.stack .pop), .call 1 (.stack .pop)]

example : ∀ c ∈ snapCase, Log c := by
  intro c hc
  simp [snapCase] at hc
  rcases hc with rfl | rfl | rfl | rfl | rfl <;> simp [Log, Adds, Takes]

example : run (start ⟨fun _ _ => 0, 0⟩) snapCase = [.bool true, .unit, .bool true, .val 1, .none] := by decide

/-- Going back: variable 1 keeps the old state, variable 0 pushes, pops and is set back, then pushes again. -/
example : Careful (fun _ => []) id ([.call 0 (.stack (.push 1 3)), .copy 0 1, .call 0 (.stack (.push 2 0)), .call 0 (.stack (.push 3 0)),
    .copy 1 0, .call 0 (.stack (.push 4 0)), .call 1 (.stack .peek)] : List (Cmd Nat)) := by
  refine ⟨?_, ?_, ?_, ?_, ?_, trivial⟩ <;> intro p hp j hj _ <;> simp [writesAt, after, stackSpec, upd] at hp <;> subst hp <;>
    simp [after, stackSpec, upd, hj] <;> split <;> simp

/-- **C162, why `Careful`.** A push within the capacity shows in every copy that has an element at its place. -/
theorem C162_shows (w : World T) (i j : Nat) (v : T) (g : Nat) (hij : j ≠ i) (harr : (w.v j).arr = (w.v i).arr) (hoff : (w.v j).off = (w.v i).off)
    (hcap : (w.v i).len < (w.v i).cap) (hlen : (w.v i).len < (w.v j).len) :
    (elems (step w (.call i (.stack (.push v g)))).1.h ((step w (.call i (.stack (.push v g)))).1.v j))[(w.v i).len]? = some v := by
  have h1 : (step w (.call i (.stack (.push v g)))).1.h = w.h.blit (w.v i).arr ((w.v i).off + (w.v i).len) [v] := by
    show (append w.h g (w.v i) [v]).1 = _
    unfold append
    rw [if_pos (by simp; omega)]
  have h2 : (step w (.call i (.stack (.push v g)))).1.v j = w.v j := upd_ne _ _ hij
  rw [h1, h2, elems_getElem?, if_pos hlen, harr, hoff]
  congr 1
  exact blit_in _ _ _ _ _ _ (Nat.le_refl _) (by simp)

end Verif.CopyVal
