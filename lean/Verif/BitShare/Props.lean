import Verif.BitShare.Lemmas
/-!
# C161: goroutines that share a bit set
-/
namespace Verif.BitShare
open Verif.BitSet Verif.Go

variable {w : Nat}

/-! ## Without a mutex -/

/-- Goroutine 0 sets bit 0 and looks at it, goroutine 1 sets bit 1. -/
def twoSets : Nat → List Call
  | 0 => [⟨.set, [0]⟩, ⟨.test, [0]⟩]
  | 1 => [⟨.set, [1]⟩]
  | _ => []

theorem twoSets_apart : Apart 8 twoSets := by
  intro t u k htu hk ⟨c, hc, hkc⟩ ⟨c', hc', hkc'⟩
  have cases3 : ∀ t c, c ∈ twoSets t → (k : Int) ∈ c.is → (t = 0 ∧ k = 0) ∨ (t = 1 ∧ k = 1) := by
    intro t c hc hk
    match t with
    | 0 =>
      rcases List.mem_cons.1 hc with rfl | hc
      · simp at hk; exact .inl ⟨rfl, hk⟩
      · cases List.mem_singleton.1 hc; simp at hk; exact .inl ⟨rfl, hk⟩
    | 1 => cases List.mem_singleton.1 hc; simp at hk; exact .inr ⟨rfl, hk⟩
    | t + 2 => cases hc
  rcases cases3 t c hc hkc with ⟨rfl, h1⟩ | ⟨rfl, h1⟩ <;> rcases cases3 u c' hc' hkc' with ⟨rfl, h2⟩ | ⟨rfl, h2⟩ <;> omega

/-- Both read the word, both write it: the bit that was written first is lost, and who set it finds it clear. -/
theorem lost : ∃ s, Reach false 0#8 twoSets s ∧ s.data = 2#8 ∧ (s.thr 0).res = [.void, .bool false] ∧ (s.thr 0).Finished ∧ (s.thr 1).Finished := by
  have h := Reach.start (locked := false) (d := 0#8) (prog := twoSets)
  replace h := h.step (t := 0) (.mk .call (by simp))
  replace h := h.step (t := 1) (.mk .call (by simp))
  replace h := h.step (t := 0) (.mk (.load (by simp) (by simp)) (by simp))
  replace h := h.step (t := 1) (.mk (.load (by simp) (by simp)) (by simp))
  replace h := h.step (t := 0) (.mk .store (by simp))
  replace h := h.step (t := 1) (.mk .store (by simp))
  replace h := h.step (t := 1) (.mk .done (by simp))
  replace h := h.step (t := 1) (.mk .ret (by simp))
  replace h := h.step (t := 0) (.mk .done (by simp))
  replace h := h.step (t := 0) (.mk .ret (by simp))
  replace h := h.step (t := 0) (.mk .call (by simp))
  replace h := h.step (t := 0) (.mk (.look (by simp)) (by simp))
  replace h := h.step (t := 0) (.mk .done (by simp))
  replace h := h.step (t := 0) (.mk .ret (by simp))
  exact ⟨_, h, rfl, rfl, ⟨rfl, rfl⟩, ⟨rfl, rfl⟩⟩

/-- **C161, refuted.** Without a mutex a goroutine finds a bit clear that it has set and that nobody else uses. -/
theorem C161_refuted : ¬ C161_full := by
  intro h
  obtain ⟨s, hs, _, h1, _⟩ := lost
  have := h 8 false 0#8 twoSets twoSets_apart s hs 0
  rw [h1] at this
  exact absurd this (by decide)

/-- **C161, the race.** Two goroutines that use different bits are about to write the word at the same time. -/
theorem C161_race : ∃ s, Reach false 0#8 twoSets s ∧ (s.thr 0).Writes ∧ (s.thr 1).Writes := by
  have h := Reach.start (locked := false) (d := 0#8) (prog := twoSets)
  replace h := h.step (t := 0) (.mk .call (by simp))
  replace h := h.step (t := 1) (.mk .call (by simp))
  replace h := h.step (t := 0) (.mk (.load (by simp) (by simp)) (by simp))
  replace h := h.step (t := 1) (.mk (.load (by simp) (by simp)) (by simp))
  exact ⟨_, h, ⟨_, _, _, _, rfl⟩, ⟨_, _, _, _, rfl⟩⟩

/-- **C161, readers.** As long as all goroutines only call `Test` no mutex is needed: all results are right, and nobody writes. -/
theorem C161_readers {locked : Bool} {d : BitVec w} {prog : Nat → List Call} (ht : ∀ t, ∀ c ∈ prog t, c.op = .test) {s : St w}
    (h : Reach locked d prog s) : s.data = d ∧ (∀ t, ¬ (s.thr t).Writes) ∧ ∀ t, (s.thr t).res <+: (alone d (prog t)).2 := by
  obtain ⟨h1, h2⟩ := readers_reach ht h
  exact ⟨h1, fun t ⟨op, i, is, reg, e⟩ => (h2 t).2 op i is reg e, fun t => track_res (h2 t).1⟩

/-- A bit that may be set: it was at the start, or a call of `Set` or `Toggle` names it. -/
def May (d : BitVec w) (prog : Nat → List Call) (k : Nat) : Prop :=
  d.getLsbD k = true ∨ ∃ t, ∃ c ∈ prog t, (c.op = .set ∨ c.op = .toggle) ∧ (k : Int) ∈ c.is

/-- **C161, nothing is made up.** Whatever is lost without a mutex: a bit is set only if it was set at the start or some call of `Set` or
`Toggle` names it. -/
theorem C161_named {locked : Bool} {d : BitVec w} {prog : Nat → List Call} {s : St w} (h : Reach locked d prog s) {k : Nat} (hk : k < w)
    (hs : s.data.getLsbD k = true) : May d prog k := by
  have key : (∀ k, k < w → s.data.getLsbD k = true → May d prog k) ∧ ∀ t,
      (∀ c ∈ (s.thr t).calls, c ∈ prog t) ∧
      (∀ op tt is, (s.thr t).pc = .loop op tt is → ∃ c ∈ prog t, c.op = op ∧ ∀ i ∈ is, i ∈ c.is) ∧
      (∀ op i is reg, (s.thr t).pc = .mid op i is reg → (0 ≤ i ∧ ∃ c ∈ prog t, c.op = op ∧ ∀ j ∈ i :: is, j ∈ c.is) ∧
        ∀ k, k < w → reg.getLsbD k = true → May d prog k) := by
    clear hs hk k
    induction h with
    | start => exact ⟨fun k _ h => .inl h, fun t => ⟨fun c hc => hc, fun _ _ _ e => (by cases e), fun _ _ _ _ e => (by cases e)⟩⟩
    | @step s s' u _ hs ih =>
      obtain ⟨ih1, ih2⟩ := ih
      cases hs with
      | @mk l d' th m hmu =>
        obtain ⟨c1, c2, c3⟩ := ih2 u
        have hnew : (∀ k, k < w → d'.getLsbD k = true → May d prog k) ∧
            (∀ c ∈ th.calls, c ∈ prog u) ∧
            (∀ op tt is, th.pc = .loop op tt is → ∃ c ∈ prog u, c.op = op ∧ ∀ i ∈ is, i ∈ c.is) ∧
            (∀ op i is reg, th.pc = .mid op i is reg → (0 ≤ i ∧ ∃ c ∈ prog u, c.op = op ∧ ∀ j ∈ i :: is, j ∈ c.is) ∧
              ∀ k, k < w → reg.getLsbD k = true → May d prog k) := by
          generalize s.thr u = q at m c1 c2 c3
          cases m with
          | @call c cs res =>
            refine ⟨ih1, fun c hc => c1 c (List.mem_cons_of_mem _ hc), ?_, fun _ _ _ _ e => by cases e⟩
            intro op tt is e
            cases e
            exact ⟨c, c1 c List.mem_cons_self, rfl, fun i hi => hi⟩
          | done => exact ⟨ih1, c1, fun _ _ _ e => (by cases e), fun _ _ _ _ e => (by cases e)⟩
          | skip =>
            refine ⟨ih1, c1, ?_, fun _ _ _ _ e => (by cases e)⟩
            intro op tt is e
            cases e
            obtain ⟨c, h1, h2, h3⟩ := c2 _ _ _ rfl
            exact ⟨c, h1, h2, fun i hi => h3 i (List.mem_cons_of_mem _ hi)⟩
          | neg => exact ⟨ih1, c1, fun _ _ _ e => (by cases e), fun _ _ _ _ e => (by cases e)⟩
          | look =>
            refine ⟨ih1, c1, ?_, fun _ _ _ _ e => (by cases e)⟩
            intro op tt is e
            cases e
            obtain ⟨c, h1, h2, h3⟩ := c2 _ _ _ rfl
            exact ⟨c, h1, h2, fun i hi => h3 i (List.mem_cons_of_mem _ hi)⟩
          | load hi hne =>
            refine ⟨ih1, c1, fun _ _ _ e => (by cases e), ?_⟩
            intro op i is reg e
            cases e
            exact ⟨⟨hi, c2 _ _ _ rfl⟩, ih1⟩
          | @store op i is reg cs res =>
            obtain ⟨⟨hi, c, h1, h2, h3⟩, h4⟩ := c3 _ _ _ _ rfl
            refine ⟨?_, c1, ?_, fun _ _ _ _ e => (by cases e)⟩
            · intro k hk hb
              by_cases e : (k : Int) = i
              · by_cases ho : op = .set ∨ op = .toggle
                · exact .inr ⟨u, c, h1, by rw [h2]; exact ho, by rw [e]; exact h3 i List.mem_cons_self⟩
                · apply h4 k hk
                  cases op with
                  | set => exact absurd (.inl rfl) ho
                  | toggle => exact absurd (.inr rfl) ho
                  | clear =>
                    simp only [app, BitVec.getLsbD_and, Bool.and_eq_true] at hb
                    exact hb.1
                  | test => exact hb
              · rw [app_bit _ hi _ hk e] at hb
                exact h4 k hk hb
            · intro op' tt is' e
              cases e
              exact ⟨c, h1, h2, fun i hi => h3 i (List.mem_cons_of_mem _ hi)⟩
          | ret => exact ⟨ih1, c1, fun _ _ _ e => (by cases e), fun _ _ _ _ e => (by cases e)⟩
        refine ⟨hnew.1, fun t => ?_⟩
        show (∀ c ∈ (upd s.thr u th t).calls, _) ∧ (∀ op tt is, (upd s.thr u th t).pc = _ → _) ∧ ∀ op i is reg, (upd s.thr u th t).pc = _ → _
        by_cases e : t = u
        · subst e; rw [upd_same]; exact hnew.2
        · rw [upd_ne _ _ e]; exact ih2 t
  exact key.1 k hk hs

/-! ## Behind a mutex -/

/-- **C161 (partial).** Behind a mutex, goroutines that use different bits get the results they would get alone, panics included.
Missing: without a mutex (`C161_refuted`). -/
theorem C161_partial {d : BitVec w} {prog : Nat → List Call} (ha : Apart w prog) {s : St w} (h : Reach true d prog s) (t : Nat) :
    (s.thr t).res <+: (alone d (prog t)).2 := by
  obtain ⟨a, h1, _⟩ := (inv_reach ha h).track t
  exact track_res h1

/-- **C161, the word.** When a goroutine has made its calls, its bits are as if it had been alone; bits nobody uses are as they were. -/
theorem C161_word {d : BitVec w} {prog : Nat → List Call} (ha : Apart w prog) {s : St w} (h : Reach true d prog s) {k : Nat} (hk : k < w) :
    (∀ t, (s.thr t).Finished → (s.thr t).res = (alone d (prog t)).2 ∧ (Names (prog t) k → s.data.getLsbD k = (alone d (prog t)).1.getLsbD k)) ∧
    ((∀ t, ¬ Names (prog t) k) → s.data.getLsbD k = d.getLsbD k) := by
  refine ⟨?_, fun hn => (inv_reach ha h).rest k hk hn⟩
  rintro t ⟨h1, h2⟩
  obtain ⟨a, h3, h4⟩ := (inv_reach ha h).track t
  generalize s.thr t = q at h1 h2 h3
  cases h3 with
  | @idle past cs res a h5 h6 =>
    replace h1 : cs = [] := h1
    subst h1
    rw [List.append_nil] at h5
    subst h5
    rw [h6]
    exact ⟨rfl, fun hn => h4 k hk hn⟩
  | _ => cases h2

/-- **C161, no race.** Behind a mutex, no two goroutines are about to use the word at the same time. -/
theorem C161_no_race {d : BitVec w} {prog : Nat → List Call} {s : St w} (h : Reach true d prog s) {t u : Nat}
    (ht : (s.thr t).Reads ∨ (s.thr t).Writes) (hu : (s.thr u).Reads ∨ (s.thr u).Writes) : t = u := by
  have busy : ∀ t, (s.thr t).Reads ∨ (s.thr t).Writes → s.mu = some t := by
    intro t ht
    apply (holder_reach h t).2
    rcases ht with ⟨op, tt, i, is, e, _⟩ | ⟨op, i, is, reg, e⟩ <;> rw [e] <;> simp
  have h1 := busy t ht
  rw [busy u hu] at h1
  cases h1; rfl

/-- **C161, who uses the word.** A goroutine that is about neither to read nor to write the word takes a step that leaves the word alone and is the same
whatever the word is: the races that `C161_no_race` excludes are all there could be. -/
theorem C161_uses {h h' : Th w} {d d' : BitVec w} {l : Lab} (m : Mv d h l d' h') (hn : ¬ (h.Reads ∨ h.Writes)) : d' = d ∧ ∀ e, Mv e h l e h' := by
  cases m with
  | call => exact ⟨rfl, fun _ => .call⟩
  | done => exact ⟨rfl, fun _ => .done⟩
  | skip => exact ⟨rfl, fun _ => .skip⟩
  | neg hi ht => exact ⟨rfl, fun _ => .neg hi ht⟩
  | look hi => exact absurd (.inl ⟨_, _, _, _, rfl, hi, fun _ => rfl⟩) hn
  | load hi ho => exact absurd (.inl ⟨_, _, _, _, rfl, hi, fun e => absurd e ho⟩) hn
  | store => exact absurd (.inr ⟨_, _, _, _, rfl⟩) hn
  | ret => exact ⟨rfl, fun _ => .ret⟩

example : ∃ (h h' : Th 8) (l : Lab), Mv 0#8 h l 0#8 h' ∧ ¬ (h.Reads ∨ h.Writes) :=
  ⟨⟨[], .loop .test true [3], []⟩, _, _, .skip, by rintro (⟨op, t, i, is, e, h1, h2⟩ | ⟨op, i, is, reg, e⟩) <;> cases e; cases h2 rfl⟩

/-- **C161, no deadlock.** As long as a goroutine has calls to make, some goroutine can step, also after calls that panic. -/
theorem C161_can_step {locked : Bool} {d : BitVec w} {prog : Nat → List Call} {s : St w} (h : Reach locked d prog s) {t : Nat}
    (ht : ¬ (s.thr t).Finished) : ∃ u s', Step locked u s s' := by
  have inCall : ∀ u, (s.thr u).pc ≠ .idle → ∃ u s', Step locked u s s' := by
    intro u hu
    obtain ⟨l, d', h', m, hl⟩ := can_mv s.data (s.thr u) hu
    exact ⟨u, _, .mk m (fun _ e => absurd e hl)⟩
  by_cases hp : (s.thr t).pc = .idle
  · have hc : ∃ c cs res, s.thr t = ⟨c :: cs, .idle, res⟩ := by
      unfold Th.Finished at ht
      generalize s.thr t = q at hp ht
      obtain ⟨cs, pc, res⟩ := q
      cases hp
      cases cs with
      | nil => exact absurd ⟨rfl, rfl⟩ ht
      | cons c cs => exact ⟨c, cs, res, rfl⟩
    obtain ⟨c, cs, res, hq⟩ := hc
    cases locked with
    | false => exact ⟨t, _, .mk (by rw [hq]; exact .call) (by simp)⟩
    | true =>
      cases hm : s.mu with
      | none => exact ⟨t, _, .mk (by rw [hq]; exact .call) (fun _ _ => hm)⟩
      | some u => exact inCall u ((holder_reach h u).1 hm)
  · exact inCall t hp

/-- **C161, the end.** Finitely many goroutines make finitely many steps, however they are scheduled. -/
theorem C161_ends {locked : Bool} {N : Nat} {d : BitVec w} {prog : Nat → List Call} (hN : ∀ t, N ≤ t → prog t = []) (σ : Nat → St w)
    (h0 : σ 0 = start d prog) : ¬ ∀ n, ∃ t, Step locked t (σ n) (σ (n + 1)) := by
  intro hs
  have hidle : ∀ n t, N ≤ t → (σ n).thr t = ⟨[], .idle, []⟩ := by
    intro n
    induction n with
    | zero => intro t ht; rw [h0]; simp [start, hN t ht]
    | succ n ih =>
      intro t ht
      obtain ⟨u, hu⟩ := hs n
      generalize σ (n + 1) = q at hu
      cases hu with
      | @mk l d' th m hmu =>
        show upd (σ n).thr u th t = _
        by_cases e : t = u
        · subst e; rw [ih t ht] at m; cases m
        · rw [upd_ne _ _ e]; exact ih t ht
  have hacc : Acc (fun g f => ∃ t, t < N ∧ (g t).cost < (f t).cost ∧ ∀ u, u ≠ t → g u = f u) (σ 0).thr := by
    apply Conc.acc_prod (R := fun _ (a b : Th w) => a.cost < b.cost)
    intro t _
    exact (InvImage.wf Th.cost Nat.lt_wfRel.wf).apply _
  have key : ∀ f, Acc (fun (g f : Nat → Th w) => ∃ t, t < N ∧ (g t).cost < (f t).cost ∧ ∀ u, u ≠ t → g u = f u) f → ∀ n, (σ n).thr = f → False := by
    intro f hf
    induction hf with
    | intro f _ ih =>
      intro n hn
      obtain ⟨t, ht⟩ := hs n
      refine ih (σ (n + 1)).thr ?_ (n + 1) rfl
      have hid := hidle n t
      generalize σ (n + 1) = q at ht
      cases ht with
      | @mk l d' th m hmu =>
        refine ⟨t, ?_, ?_, ?_⟩
        · apply Classical.byContradiction
          intro hlt
          rw [hid (by omega)] at m
          cases m
        · show (upd (σ n).thr t th t).cost < (f t).cost
          rw [upd_same, ← hn]; exact mv_cost m
        · intro u hu
          show upd (σ n).thr t th u = f u
          rw [upd_ne _ _ hu, hn]
  exact key _ hacc 0 rfl

/-! ## Cases -/

/-- The two goroutines of the lost bit, behind a mutex. -/
example {s : St 8} (h : Reach true 0#8 twoSets s) (h0 : (s.thr 0).Finished) (h1 : (s.thr 1).Finished) :
    (s.thr 0).res = [.void, .bool true] ∧ s.data.getLsbD 0 = true ∧ s.data.getLsbD 1 = true := by
  obtain ⟨a, b⟩ := (C161_word twoSets_apart h (k := 0) (by omega)).1 0 h0
  obtain ⟨c, e⟩ := (C161_word twoSets_apart h (k := 1) (by omega)).1 1 h1
  exact ⟨a, b ⟨_, List.mem_cons_self, List.mem_cons_self⟩, e ⟨_, List.mem_cons_self, List.mem_cons_self⟩⟩

/-- A call that panics in the middle has done its first half, alone. -/
example : alone 0#8 [⟨.set, [3, -1, 4]⟩, ⟨.test, [3]⟩, ⟨.test, [4]⟩] = (8#8, [.panic, .bool true, .bool false]) := by decide

end Verif.BitShare
