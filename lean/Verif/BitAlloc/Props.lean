import Verif.BitAlloc.Lemmas
import Verif.Conc.RWFair
/-!
# C181: a bit set behind a mutex that hands out numbers
-/
namespace Verif.BitAlloc
open Verif.Go Verif.Conc Verif.Conc.RW Verif.BitSet
open Verif.Linked (Res)

variable {w : Nat}

/-- The states of the system. -/
abbrev State (w : Nat) : Type := RW.St (BitVec w) Unit Call (Res Nat)

/-- **C181, with `IsFull`.** In every schedule the calls of all goroutines behave like calls of one pool of all numbers below the width, made one after the other: the smallest
free number is handed out, and none only when all are in use. -/
theorem C181_linearizable {s : State w} (h : Reach (pool w alloc) s) : Linearizable (numbers w) s.hist :=
  RW.sim Agree (fun j => by change False ↔ (0#w).getLsbD j = true; simp) (fun d d' c r U ag st => sim_step (Nat.le_refl w) alloc_right d d' c r U ag (HandOut.behind_seq st))
    (RW.linearizable HandOut.behind_reads h)

/-- **C181, exclusive use.** No number is handed out a second time unless it was given back in between. -/
theorem C181_exclusive {s : State w} (h : Reach (pool w alloc) s) : Exclusive s.hist :=
  exclusive (C181_linearizable h) (unique_inv HandOut.behind_reads h)

/-- **C181 (partial), with a limit.** The program that looks below a limit is right when the limit is not above the width of the word. Missing: larger limits (`C181_refuted`). -/
theorem C181_limit_partial {n : Nat} (hn : n ≤ w) {s : State w} (h : Reach (pool w (allocBelow n)) s) : Linearizable (numbers n) s.hist ∧ Exclusive s.hist := by
  have hl : Linearizable (numbers n) s.hist :=
    RW.sim Agree (fun j => by change False ↔ (0#w).getLsbD j = true; simp) (fun d d' c r U ag st => sim_step hn (below_right n) d d' c r U ag (HandOut.behind_seq st))
      (RW.linearizable HandOut.behind_reads h)
  exact ⟨hl, exclusive hl (unique_inv HandOut.behind_reads h)⟩

/-- **C181, none left.** When a goroutine is told that there is none left, every number below the width has been handed out. -/
theorem C181_none {s : State w} (h : Reach (pool w alloc) s) {q : Nat} (hi : Event.inv q .alloc ∈ s.hist) (hq : Event.ret q .none ∈ s.hist) {i : Nat} (hw : i < w) :
    ∃ a, Event.inv a .alloc ∈ s.hist ∧ (∀ r, Event.ret a r ∈ s.hist → r = .val i) ∧ ∀ r c, ¬ Before s.hist (.ret q r) (.inv a c) := by
  obtain ⟨S, U, lin⟩ := C181_linearizable h
  obtain ⟨c1, m1⟩ := lin.returned _ _ hq
  have e1 := unique_inv HandOut.behind_reads h _ _ _ (lin.invoked _ m1) hi
  simp only at e1
  subst e1
  obtain ⟨A, B, hS⟩ := List.append_of_mem m1
  have legal := lin.legal
  rw [show S = A ++ [(q, Call.alloc, Res.none)] ++ B by rw [hS]; simp] at legal
  obtain ⟨U2, legal⟩ := legal_split legal
  obtain ⟨U1, legal, st⟩ := legal_last legal
  rcases st with ⟨k, e, -⟩ | ⟨-, all, -⟩
  · cases e
  obtain ⟨-, a, ha⟩ := given legal (all i hw)
  obtain ⟨a1, a2, rfl⟩ := List.append_of_mem ha
  have m3 : (a, Call.alloc, Res.val i) ∈ S := by rw [hS]; simp
  refine ⟨a, lin.invoked _ m3, fun r hr => ?_, fun r c hb => ?_⟩
  · obtain ⟨c', hc'⟩ := lin.returned _ _ hr
    have := List.inj_on_of_nodup_map lin.once hc' m3 rfl
    cases this
    rfl
  · exact HandOut.before_asymm lin.once ⟨a1, a2, B, by rw [hS]; simp⟩ (lin.realtime _ m1 _ m3 r c hb)

/-- **C181, all calls return,** also those that panic, for both programs and any limit. -/
theorem C181_all_return {al : BitVec w → Outcome (BitVec w × Option Nat)} (hal : al = alloc ∨ ∃ n, al = allocBelow n) {e : Nat → FSt _ _ _ _} {who : Nat → Option Nat}
    (x : Exec (pool w al) e who) (fr : FairRun (pool w al) e who) {n id : Nat} {c : Call} (h : Event.inv id c ∈ (e n).s.hist) :
    ∃ m r, n ≤ m ∧ Event.ret id r ∈ (e m).s.hist := by
  have tot : ∀ d c, ∃ r d', call al d c r d' := by
    rcases hal with rfl | ⟨n, rfl⟩
    · exact total alloc_right
    · exact total (below_right n)
  exact all_calls_return HandOut.behind_reads (HandOut.behind_live tot) (μ := fun _ _ _ => 0) (fun s c a a' _ h => HandOut.behind_shrinks s c a a' h) x fr h

/-- What a program with a `BitSet[uint8]` and the limit 9 sees after eight numbers. -/
def exHist : List (Event Call (Res Nat)) := [.inv 0 .alloc, .ret 0 (.val 0), .inv 1 .alloc, .ret 1 (.val 1), .inv 2 .alloc, .ret 2 (.val 2), .inv 3 .alloc, .ret 3 (.val 3),
  .inv 4 .alloc, .ret 4 (.val 4), .inv 5 .alloc, .ret 5 (.val 5), .inv 6 .alloc, .ret 6 (.val 6), .inv 7 .alloc, .ret 7 (.val 7), .inv 8 .alloc, .ret 8 (.val 8),
  .inv 9 .alloc, .ret 9 (.val 8)]

/-- **C181 is false of the code**: `Set` of a bit that the word does not have does nothing, and a program that looks below a limit larger than the width hands the same number
out again and again. -/
theorem C181_refuted : ¬ C181_full ∧ ∃ s : State 8, Reach (pool 8 (allocBelow 9)) s ∧ s.hist = exHist := by
  have hr : ∃ s : State 8, Reach (pool 8 (allocBelow 9)) s ∧ s.hist = exHist := by
    have h : Reach (pool 8 (allocBelow 9)) (HandOut.quiet 0#8 0 []) := .init
    have h : Reach (pool 8 (allocBelow 9)) _ := HandOut.alone (m' := 1#8) (c := .alloc) (r := .val 0) h (by exact ⟨some 0, by decide +kernel, rfl⟩)
    have h : Reach (pool 8 (allocBelow 9)) _ := HandOut.alone (m' := 3#8) (c := .alloc) (r := .val 1) h (by exact ⟨some 1, by decide +kernel, rfl⟩)
    have h : Reach (pool 8 (allocBelow 9)) _ := HandOut.alone (m' := 7#8) (c := .alloc) (r := .val 2) h (by exact ⟨some 2, by decide +kernel, rfl⟩)
    have h : Reach (pool 8 (allocBelow 9)) _ := HandOut.alone (m' := 15#8) (c := .alloc) (r := .val 3) h (by exact ⟨some 3, by decide +kernel, rfl⟩)
    have h : Reach (pool 8 (allocBelow 9)) _ := HandOut.alone (m' := 31#8) (c := .alloc) (r := .val 4) h (by exact ⟨some 4, by decide +kernel, rfl⟩)
    have h : Reach (pool 8 (allocBelow 9)) _ := HandOut.alone (m' := 63#8) (c := .alloc) (r := .val 5) h (by exact ⟨some 5, by decide +kernel, rfl⟩)
    have h : Reach (pool 8 (allocBelow 9)) _ := HandOut.alone (m' := 127#8) (c := .alloc) (r := .val 6) h (by exact ⟨some 6, by decide +kernel, rfl⟩)
    have h : Reach (pool 8 (allocBelow 9)) _ := HandOut.alone (m' := 255#8) (c := .alloc) (r := .val 7) h (by exact ⟨some 7, by decide +kernel, rfl⟩)
    have h : Reach (pool 8 (allocBelow 9)) _ := HandOut.alone (m' := 255#8) (c := .alloc) (r := .val 8) h (by exact ⟨some 8, by decide +kernel, rfl⟩)
    have h : Reach (pool 8 (allocBelow 9)) _ := HandOut.alone (m' := 255#8) (c := .alloc) (r := .val 8) h (by exact ⟨some 8, by decide +kernel, rfl⟩)
    exact ⟨_, h, rfl⟩
  refine ⟨fun full => ?_, hr⟩
  obtain ⟨s, h, e⟩ := hr
  have := full 8 9 s h 8 9 8 (by decide) (by rw [e]; simp [exHist]) (by rw [e]; simp [exHist]) (by rw [e]; simp [exHist]) (by rw [e]; simp [exHist])
  rcases this with ⟨-, f, hf, -⟩ | ⟨-, f, hf, -⟩ <;> (rw [e] at hf; simp [exHist] at hf)

/-- Two goroutines at a `BitSet[uint8]`: a number is handed out again while its `Clear` is still under way. -/
theorem ex_reach : ∃ s : State 8, Reach (pool 8 alloc) s ∧ s.hist = [.inv 0 .alloc, .ret 0 (.val 0), .inv 1 (.free 0), .inv 2 .alloc, .ret 2 (.val 0), .ret 1 .unit] := by
  have h : Reach (pool 8 alloc) (HandOut.quiet 0#8 0 []) := .init
  have h : Reach (pool 8 alloc) _ := HandOut.alone (m' := 1#8) (c := .alloc) (r := .val 0) h (by exact ⟨some 0, by decide +kernel, rfl⟩)
  have h := h.step (.invoke (t := 0) (c := .free 0) rfl)
  have h := h.step (.invoke (t := 1) (c := .alloc) rfl)
  have h := h.step (.lock (t := 0) (id := 1) (c := .free 0) rfl rfl rfl rfl)
  have h := h.step (.access (t := 0) (id := 1) (c := .free 0) (acc := ()) (r := .unit) (m' := 0#8) rfl (by exact ⟨by decide +kernel, by decide +kernel⟩))
  have h := h.step (.unlock (t := 0) (id := 1) (c := .free 0) rfl rfl)
  have h := h.step (.lock (t := 1) (id := 2) (c := .alloc) rfl rfl rfl rfl)
  have h := h.step (.access (t := 1) (id := 2) (c := .alloc) (acc := ()) (r := .val 0) (m' := 1#8) rfl (by exact ⟨some 0, by decide +kernel, rfl⟩))
  have h := h.step (.unlock (t := 1) (id := 2) (c := .alloc) rfl rfl)
  have h := h.step (.ret (t := 1) (id := 2) (c := .alloc) rfl)
  have h := h.step (.ret (t := 0) (id := 1) (c := .free 0) rfl)
  exact ⟨_, h, rfl⟩

/-- The call that gave it back is found between the two. -/
example : ∃ s : State 8, Reach (pool 8 alloc) s ∧ Event.ret 0 (.val 0) ∈ s.hist ∧ Event.ret 2 (.val 0) ∈ s.hist ∧ Between s.hist 0 0 2 1 := by
  obtain ⟨s, h, e⟩ := ex_reach
  refine ⟨s, h, by simp [e], by simp [e], ?_⟩
  rcases C181_exclusive h 0 2 0 (by decide) (by simp [e]) (by simp [e]) (by simp [e]) (by simp [e]) with ⟨-, f, hf⟩ | ⟨hn, -⟩
  · have hm := hf.1
    rw [e] at hm
    simp at hm
    subst hm
    exact hf
  · exact absurd ⟨[Event.inv 0 Call.alloc], [.inv 1 (.free 0)], [.ret 2 (.val 0), .ret 1 .unit], by rw [e]; rfl⟩ (hn (.val 0) .alloc)

/-- A bit set of 2 bits: the third goroutine is told that there is none left. -/
example : ∃ s : State 2, Reach (pool 2 alloc) s ∧ s.hist = [.inv 0 .alloc, .ret 0 (.val 0), .inv 1 .alloc, .ret 1 (.val 1), .inv 2 .alloc, .ret 2 .none] := by
  have h : Reach (pool 2 alloc) (HandOut.quiet 0#2 0 []) := .init
  have h : Reach (pool 2 alloc) _ := HandOut.alone (m' := 1#2) (c := .alloc) (r := .val 0) h (by exact ⟨some 0, by decide +kernel, rfl⟩)
  have h : Reach (pool 2 alloc) _ := HandOut.alone (m' := 3#2) (c := .alloc) (r := .val 1) h (by exact ⟨some 1, by decide +kernel, rfl⟩)
  have h : Reach (pool 2 alloc) _ := HandOut.alone (m' := 3#2) (c := .alloc) (r := .none) h (by exact ⟨none, by decide +kernel, rfl⟩)
  exact ⟨_, h, rfl⟩

end Verif.BitAlloc
