import Verif.DecPanic.Lemmas
import Verif.Decouple.Props
/-!
# C93: a view that panics

The theorems quantify over all interleavings of any number of writers with one reader whose views panic at any
times, as long as the ticket counter has been taken fewer than 2^64 - 2 times (see C57).
-/
namespace Verif.DecPanic
open Verif.Decouple

variable {α : Type} {size : Nat} {payload : Nat → List α} {p q : PSt α}

/-- Panics do not lead to states that are not also reached without them: whatever holds of every reachable state
(C57, C82) also holds when views panic. -/
theorem C93_no_new_states (r : PReach size payload p) : Reach size payload p.st := by
  induction r with
  | init => exact .init
  | step _ st ih =>
    cases st with
    | normal s' h => exact ih.step h
    | viewPanic i h => exact reach_back ih (.inr ⟨i, h⟩)

/-- Every payload shown to a view that panicked is that of one non-empty `Write` that put it into the buffer; and
all that C57 says of the payloads shown to views that return stays true: each once, none lost. -/
theorem C93_safe (hs : size ≠ 0) (hz : size < W - 2) (r : PReach size payload p) (ha : p.st.attempts < W - 2) :
    Safe size payload p.st ∧
    ∀ b ∈ p.failed, ∃ j, b = payload j ∧ b ≠ [] ∧ (p.st.wpc j = .incr ∨ p.st.wpc j = .accepted) := by
  refine ⟨C57_safe_partial hs hz (C93_no_new_states r) ha, ?_⟩
  have done_iff : ∀ (s : St α) j, (s.wpc j).done = true ↔ s.wpc j = .incr ∨ s.wpc j = .accepted := fun s j => by
    cases s.wpc j <;> simp [WPc.done]
  have keep : ∀ {s s' : St α}, Step size payload s s' → ∀ j, (s.wpc j = .incr ∨ s.wpc j = .accepted) →
      (s'.wpc j = .incr ∨ s'.wpc j = .accepted) := by
    intro s s' st j hj
    cases st <;> grind [St.at]
  induction r with
  | init => simp
  | @step p p' r st ih =>
    cases st with
    | normal s' h =>
      have ih := ih (Nat.lt_of_le_of_lt (attempts_mono h) ha)
      intro b hb
      obtain ⟨j, h1, h2, h3⟩ := ih b hb
      exact ⟨j, h1, h2, keep h j h3⟩
    | viewPanic i h =>
      intro b hb
      rcases List.mem_append.1 hb with hb | hb
      · exact ih ha b hb
      · rw [List.mem_singleton.1 hb]
        obtain ⟨own, sl, js, n⟩ := inv_reach (C93_no_new_states r) ha
        have hf := n.rdr i (by rw [h]; rfl)
        obtain ⟨g1, g2, -⟩ := n.fullS i hf
        refine ⟨own i, g2, ?_, (done_iff _ _).1 g1⟩
        rw [g2]
        refine n.nz _ (fun e => ?_) (fun e => ?_) <;> rw [e] at g1 <;> cases g1

/-- The payload of a view that panicked is not lost and not overtaken: from then on, whatever the writers do and
however often views panic, as long as no view returns, the next call of `Next` finds its slot full (it does not
return false and does not wait), and what it shows is the same payload. -/
theorem C93_shown_again (hs : size ≠ 0) (hz : size < W - 2) (r : PReach size payload p) {i : Nat}
    (hv : p.st.rpc = .view i) (hq : PSteps size payload (p.panic i) q) (ha : q.st.attempts < W - 2)
    (hl : q.st.log = p.st.log) :
    (q.st.rpc = .idle ∨ q.st.rpc = .spin i ∨ q.st.rpc = .view i) ∧ q.st.len ≠ 0 ∧ slot size q.st.rd = i ∧
    q.st.lock i ≠ emptyL ∧ q.st.lock i ≠ busyL ∧ q.st.buf i = p.st.buf i := by
  have r0 : PReach size payload (p.panic i) := r.step (.viewPanic p i hv)
  have key : PReach size payload q ∧ (∃ l, q.st.log = p.st.log ++ l) ∧
      (q.st.attempts < W - 2 → q.st.log = p.st.log → Again size i (p.st.buf i) q.st) := by
    clear ha hl
    induction hq with
    | refl =>
      refine ⟨r0, ⟨[], by simp [PSt.panic]⟩, fun ha _ => ?_⟩
      have r' := C93_no_new_states r
      obtain ⟨own, sl, js, n⟩ := inv_reach r' ha
      obtain ⟨inc, fl, c⟩ := cnt_reach hs hz r' ha
      have := c.pos (by rw [hv]; rfl)
      exact ⟨.inl rfl, by simp only [PSt.panic]; omega, (view_slot r' hv).symm, n.rdr i (by rw [hv]; rfl), rfl⟩
    | @step q q' _ st ih =>
      obtain ⟨i1, ⟨l, i2⟩, i3⟩ := ih
      refine ⟨i1.step st, ?_, fun ha hl => ?_⟩
      · cases st with
        | normal s' h =>
          obtain ⟨l', h'⟩ := log_mono h
          exact ⟨l ++ l', by rw [h', i2, List.append_assoc]⟩
        | viewPanic k h => exact ⟨l, i2⟩
      · cases st with
        | normal s' h =>
          have ha' := Nat.lt_of_le_of_lt (attempts_mono h) ha
          obtain ⟨l', h'⟩ := log_mono h
          have hl0 : l = [] ∧ l' = [] := by
            have h2 : p.st.log ++ (l ++ l') = p.st.log ++ [] := by
              rw [← List.append_assoc, ← i2, ← h', List.append_nil]; exact hl
            simpa using List.append_cancel_left h2
          have hlq : q.st.log = p.st.log := by rw [i2, hl0.1, List.append_nil]
          obtain ⟨own, sl, js, n⟩ := inv_reach (C93_no_new_states i1) ha'
          obtain ⟨inc, fl, c⟩ := cnt_reach hs hz (C93_no_new_states i1) ha'
          exact again_step hz n c (i3 ha' hlq) h (by rw [h', hl0.2, List.append_nil])
        | viewPanic k h =>
          obtain ⟨a1, a2, a3, a4, a5⟩ := i3 ha hl
          exact ⟨.inl rfl, a2, a3, a4, a5⟩
  obtain ⟨a1, a2, a3, a4, a5⟩ := key.2.2 ha hl
  exact ⟨a1, a2, a3, ((full_iff _).1 a4).1, ((full_iff _).1 a4).2, a5⟩

/-- One write; a view that panics; the same payload is shown again and then returned from. -/
example : ∃ p q : PSt Nat, PReach 1 (fun j => [j + 5]) p ∧ p.st.rpc = .view 0 ∧ p.st.attempts < W - 2 ∧
    PSteps 1 (fun j => [j + 5]) (p.panic 0) q ∧ q.failed = [[5]] ∧ q.st.log = [[5]] ∧ q.st.rpc = .idle ∧ q.st.len = 0 := by
  have a1 := PReach.step (size := 1) (payload := fun j => [j + 5]) .init (.normal _ _ (.call _ 0 rfl (by simp)))
  have a2 := a1.step (.normal _ _ (.add _ 0 rfl (by decide)))
  have a3 := a2.step (.normal _ _ (.loadEmpty _ 0 0 rfl rfl))
  have a4 := a3.step (.normal _ _ (.casOk _ 0 0 rfl rfl))
  have a5 := a4.step (.normal _ _ (.copy _ 0 0 rfl))
  have a6 := a5.step (.normal _ _ (.store _ 0 0 rfl))
  have a7 := a6.step (.normal _ _ (.incr _ 0 rfl))
  have a8 := a7.step (.normal _ _ (.next _ rfl (by decide) (by decide)))
  have a9 := a8.step (.normal _ _ (.spinEnd _ 0 rfl (by decide) (by decide)))
  refine ⟨_, _, a9, rfl, by decide, PSteps.refl
      |>.step (.normal _ _ (.next _ rfl (by decide) (by decide)))
      |>.step (.normal _ _ (.spinEnd _ 0 rfl (by decide) (by decide)))
      |>.step (.normal _ _ (.view _ 0 rfl))
      |>.step (.normal _ _ (.clear _ 0 rfl))
      |>.step (.normal _ _ (.decr _ rfl)), rfl, rfl, rfl, rfl⟩

end Verif.DecPanic
