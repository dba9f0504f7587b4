import Verif.DecMulti.Lemmas
/-!
# C108: the Decoupler with more than one reader
-/
namespace Verif.DecMulti
open Verif.Decouple

variable {α : Type} {size : Nat} {payload : Nat → List α}

/-- `js`: the calls of `Write` whose payload was shown, in order. Each once, and each as it was given; what was accepted and not
shown lies in a slot of its own. -/
def Intact (size : Nat) (payload : Nat → List α) (s : St α) : Prop := ∃ (js : List Nat) (sl : Nat → Nat),
  js.Nodup ∧ s.log = js.map payload ∧ (∀ j ∈ js, s.wpc j = .incr ∨ s.wpc j = .accepted) ∧
  (∀ j, s.wpc j = .accepted → j ∉ js → sl j < size ∧ s.buf (sl j) = payload j ∧ s.lock (sl j) ≠ emptyL ∧ s.lock (sl j) ≠ busyL) ∧
  (∀ j j', s.wpc j = .accepted → s.wpc j' = .accepted → j ∉ js → j' ∉ js → sl j = sl j' → j = j')

/-- The full statement, for any number of readers. -/
def C108_full : Prop := ∀ (size : Nat) (payload : Nat → List Nat) (m : MSt Nat), size ≠ 0 → size < W - 2 →
  MReach size payload m → m.st.attempts < W - 2 → Intact size payload m.st

/-- **C108** for readers that take turns. Missing: calls of `Next` that overlap, for which it is false (`C108_refuted`). -/
theorem C108_partial (hs : size ≠ 0) (hz : size < W - 2) {m : MSt α} (r : SReach size payload m) (ha : m.st.attempts < W - 2) :
    Intact size payload m.st ∧ m.st.crashed = false := by
  obtain ⟨a, h1, h2, h3⟩ := r.sim hs
  have key : ∀ q, (one size m.st q).log = m.st.log ∧ (one size m.st q).wpc = m.st.wpc ∧ (one size m.st q).buf = m.st.buf ∧
      (one size m.st q).lock = m.st.lock ∧ (one size m.st q).attempts = m.st.attempts ∧ (one size m.st q).crashed = m.st.crashed := by
    intro q; cases q <;> exact ⟨rfl, rfl, rfl, rfl, rfl, rfl⟩
  obtain ⟨k1, k2, k3, k4, k5, k6⟩ := key (m.rpc a)
  have safe := C57_safe_partial hs hz h3 (by rw [k5]; exact ha)
  obtain ⟨js, sl, g1, g2, g3, g4, g5⟩ := safe.delivery
  rw [k1] at g2
  rw [k2] at g3 g4 g5
  rw [k3, k4] at g4
  exact ⟨⟨js, sl, g1, g2, fun j hj => (g3 j hj).1, g4, g5⟩, k6 ▸ safe.sound⟩

/-- A call of `Write` that finds its slot empty. -/
theorem write_now (hs : size ≠ 0) {m : MSt α} (r : MReach size payload m) (hq : m.st.rpc = .idle) {j ts i : Nat}
    (hp : (payload j).length ≠ 0) (h0 : m.st.wpc j = .new) (ht : (m.st.wr + 1) % W = ts) (hi : slot size ts = i)
    (he : m.st.lock i = emptyL) :
    MReach size payload { m with st := { m.st with
      wr := ts, attempts := m.st.attempts + 1, len := (m.st.len + 1) % W
      lock := fun x => if x = i then ts else m.st.lock x
      buf := fun x => if x = i then payload j else m.st.buf x
      wpc := fun x => if x = j then .accepted else m.st.wpc x } } := by
  subst ht hi
  have r1 := r.step (.write _ _ (.call _ j h0 hp) hq)
  have r2 := r1.step (.write _ _ (.add _ j (by simp [St.at]) hs) hq)
  have r3 := r2.step (.write _ _ (.loadEmpty _ j ((m.st.wr + 1) % W) (by simp [St.at]) (by simpa [St.at] using he)) hq)
  have r4 := r3.step (.write _ _ (.casOk _ j ((m.st.wr + 1) % W) (by simp [St.at]) (by simpa [St.at] using he)) hq)
  have r5 := r4.step (.write _ _ (.copy _ j ((m.st.wr + 1) % W) (by simp [St.at])) hq)
  have r6 := r5.step (.write _ _ (.store _ j ((m.st.wr + 1) % W) (by simp [St.at])) hq)
  have r7 := r6.step (.write _ _ (.incr _ j (by simp [St.at])) hq)
  simp only [St.at] at r7
  convert r7 using 3
  · funext x; split <;> simp_all
  · funext x; split <;> rfl

/-- Two readers are shown the same payload. Then both go on; meanwhile another payload is accepted into the slot, and the second
reader clears it away: it is shown to nobody, and nothing is left of it. -/
theorem C108_lost : ∃ m : MSt Nat, MReach 1 (fun j => [j]) m ∧ m.st.attempts = 2 ∧ m.st.wpc 0 = .accepted ∧ m.st.wpc 1 = .accepted ∧
    m.st.log = [[0], [0]] ∧ (∀ a, m.rpc a = .idle) ∧ (∀ i, m.st.lock i = emptyL) ∧ m.st.len = 0 := by
  have r1 := write_now (size := 1) (payload := fun j => [j]) (j := 0) (ts := 0) (i := 0) (by decide) .init rfl (by simp) rfl rfl rfl rfl
  have r2 := r1.step (.some _ 0 rfl (by decide))
  have r3 := r2.step (.some _ 1 rfl (by decide))
  have r4 := r3.step (.read _ 0 rfl (by decide))
  have r5 := r4.step (.read _ 1 rfl (by decide))
  have r6 := r5.step (.found _ 0 0 rfl (by decide) (by decide))
  have r7 := r6.step (.found _ 1 0 rfl (by decide) (by decide))
  have r8 := r7.step (.view _ 0 0 rfl)
  have r9 := r8.step (.view _ 1 0 rfl)
  have r10 := r9.step (.clear _ 0 0 rfl)
  have r11 := r10.step (.decr _ 0 rfl)
  have r12 := r11.step (.load _ 0 rfl)
  have r13 := r12.step (.store _ 0 0 rfl)
  have r14 := write_now (j := 1) (ts := 1) (i := 0) (by decide) r13 rfl (by simp) rfl rfl rfl rfl
  have r15 := r14.step (.clear _ 1 0 rfl)
  have r16 := r15.step (.decr _ 1 rfl)
  have r17 := r16.step (.load _ 1 rfl)
  have r18 := r17.step (.store _ 1 1 rfl)
  refine ⟨_, r18, rfl, rfl, rfl, rfl, fun a => ?_, fun i => ?_, by decide⟩
  · simp only [MSt.at]
    by_cases h0 : a = 0 <;> by_cases h1 : a = 1 <;> simp [h0, h1]
  · simp only [MSt.at]
    by_cases h0 : i = 0
    · simp [h0]
    · simp [h0, init]

/-- **C108** is false for calls that overlap. -/
theorem C108_refuted : ¬ C108_full := by
  intro h
  obtain ⟨m, r, ha, _, hw, hl, _, he, _⟩ := C108_lost
  obtain ⟨js, sl, g1, g2, _, g4, _⟩ := h 1 _ m (by decide) (by decide) r (by rw [ha]; decide)
  rw [hl] at g2
  have hj : 1 ∉ js := by
    intro hm
    have : [1] ∈ js.map (fun j => [j]) := List.mem_map.2 ⟨1, hm, rfl⟩
    rw [← g2] at this
    simp at this
  exact (g4 1 hw hj).2.2.1 (he _)

/-- Steps that take place while no `Write` is under way or begins. -/
inductive Quiet (size : Nat) (payload : Nat → List α) (m : MSt α) : MSt α → Prop where
  | refl : Quiet size payload m m
  | step {m' m'' : MSt α} : Quiet size payload m m' → MStep size payload m' m'' → m''.st.wpc = m'.st.wpc → Quiet size payload m m''

/-- When two readers are shown the only payload the length falls below zero, and the next call of `Next` waits for ever. -/
theorem C108_hang : ∃ m : MSt Nat, MReach 1 (fun j => [j]) m ∧ m.st.log = [[0], [0]] ∧ m.st.len = W - 1 ∧
    (∀ j, m.st.wpc j = .new ∨ m.st.wpc j = .accepted) ∧
    ∀ m', Quiet 1 (fun j => [j]) m m' → m'.rpc 0 = .spin 0 := by
  have r1 := write_now (size := 1) (payload := fun j => [j]) (j := 0) (ts := 0) (i := 0) (by decide) .init rfl (by simp) rfl rfl rfl rfl
  have r2 := r1.step (.some _ 0 rfl (by decide))
  have r3 := r2.step (.some _ 1 rfl (by decide))
  have r4 := r3.step (.read _ 0 rfl (by decide))
  have r5 := r4.step (.read _ 1 rfl (by decide))
  have r6 := r5.step (.found _ 0 0 rfl (by decide) (by decide))
  have r7 := r6.step (.found _ 1 0 rfl (by decide) (by decide))
  have r8 := r7.step (.view _ 0 0 rfl)
  have r9 := r8.step (.view _ 1 0 rfl)
  have r10 := r9.step (.clear _ 0 0 rfl)
  have r11 := r10.step (.decr _ 0 rfl)
  have r12 := r11.step (.load _ 0 rfl)
  have r13 := r12.step (.store _ 0 0 rfl)
  have r15 := r13.step (.clear _ 1 0 rfl)
  have r16 := r15.step (.decr _ 1 rfl)
  have r17 := r16.step (.load _ 1 rfl)
  have r18 := r17.step (.store _ 1 1 rfl)
  have r19 := r18.step (.some _ 0 rfl (by decide))
  have r20 := r19.step (.read _ 0 rfl (by decide))
  refine ⟨_, r20, rfl, by decide, fun j => ?_, ?_⟩
  · simp only [MSt.at]
    by_cases h0 : j = 0
    · right; simp [h0]
    · left; simp [h0, init]
  · -- nobody gets past line 85
    have key : ∀ (m m' : MSt Nat), (∀ j, m.st.wpc j = .new ∨ m.st.wpc j = .accepted) → (∀ i, m.st.lock i = emptyL) →
        m.rpc 0 = .spin 0 → (∀ a, m.rpc a = .idle ∨ m.rpc a = .got ∨ ∃ i, m.rpc a = .spin i) →
        Quiet 1 (fun j => [j]) m m' → m'.rpc 0 = .spin 0 := by
      intro m m' h1 h2 h3 h4 q
      suffices (∀ j, m'.st.wpc j = .new ∨ m'.st.wpc j = .accepted) ∧ (∀ i, m'.st.lock i = emptyL) ∧ m'.rpc 0 = .spin 0 ∧
        (∀ a, m'.rpc a = .idle ∨ m'.rpc a = .got ∨ ∃ i, m'.rpc a = .spin i) from this.2.2.1
      induction q with
      | refl => exact ⟨h1, h2, h3, h4⟩
      | @step m' m'' _ st e ih =>
        obtain ⟨i1, i2, i3, i4⟩ := ih
        refine ⟨fun j => by rw [e]; exact i1 j, ?_⟩
        have no : ∀ a, (∀ i, m'.rpc a ≠ .view i) ∧ (∀ i, m'.rpc a ≠ .clear i) ∧ m'.rpc a ≠ .decr ∧ m'.rpc a ≠ .load ∧
            ∀ r, m'.rpc a ≠ .store r := by
          intro a
          rcases i4 a with h | h | ⟨i, h⟩ <;> rw [h] <;> simp
        have up : ∀ a q, a ≠ 0 → (q = .got ∨ ∃ i, q = .spin i) → (∀ i, (m'.at a q).st.lock i = emptyL) ∧
            (m'.at a q).rpc 0 = .spin 0 ∧ (∀ b, (m'.at a q).rpc b = .idle ∨ (m'.at a q).rpc b = .got ∨ ∃ i, (m'.at a q).rpc b = .spin i) := by
          intro a q ha hq
          refine ⟨i2, by simp only [MSt.at, Ne.symm ha, if_false]; exact i3, fun b => ?_⟩
          simp only [MSt.at]
          split
          · rcases hq with hq | hq
            · exact .inr (.inl hq)
            · exact .inr (.inr hq)
          · exact i4 b
        cases st with
        | write st' hst hi =>
          have hl : st'.lock = m'.st.lock := by
            cases hst with
            | casOk j ts h h5 => rcases i1 j with h' | h' <;> rw [h] at h' <;> cases h'
            | store j ts h => rcases i1 j with h' | h' <;> rw [h] at h' <;> cases h'
            | clear i h => cases hi
            | _ => rfl
          exact ⟨fun i => by simp only [hl]; exact i2 i, i3, i4⟩
        | none a h h5 => exact ⟨i2, i3, i4⟩
        | some a h h5 => exact up a _ (by rintro rfl; rw [i3] at h; cases h) (.inl rfl)
        | div a h h5 => exact ⟨i2, i3, i4⟩
        | read a h h5 => exact up a _ (by rintro rfl; rw [i3] at h; cases h) (.inr ⟨_, rfl⟩)
        | wait a i h h5 => exact ⟨i2, i3, i4⟩
        | found a i h h5 h6 => exact absurd (i2 i) h5
        | view a i h => exact absurd h ((no a).1 i)
        | clear a i h => exact absurd h ((no a).2.1 i)
        | decr a h => exact absurd h (no a).2.2.1
        | load a h => exact absurd h (no a).2.2.2.1
        | store a r h => exact absurd h ((no a).2.2.2.2 r)
    refine fun m' q => key _ m' (fun j => ?_) (fun i => ?_) rfl (fun a => ?_) q
    · simp only [MSt.at]
      by_cases h0 : j = 0
      · right; simp [h0]
      · left; simp [h0, init]
    · simp only [MSt.at]
      by_cases h0 : i = 0
      · simp [h0]
      · simp [h0, init]
    · simp only [MSt.at]
      by_cases h0 : a = 0
      · exact .inr (.inr ⟨0, by simp [h0, slot]⟩)
      · by_cases h1 : a = 1 <;> simp [h0, h1]

/-- Two readers that take turns. -/
example : ∃ m : MSt Nat, SReach 1 (fun j => [j]) m ∧ m.rpc 0 = .idle ∧ m.rpc 1 = .got := by
  have al : ∀ (m : MSt Nat) a, (∀ b, b ≠ a → m.rpc b = .idle) → Alone m := by
    intro m a h b c hb hc
    have e1 : b = a := by by_contra hn; exact hb (h b hn)
    have e2 : c = a := by by_contra hn; exact hc (h c hn)
    rw [e1, e2]
  have w : ∀ m : MSt Nat, (∀ b, m.rpc b = .idle) → Alone m := fun m h => al m 0 fun b _ => h b
  have r1 := SReach.step (size := 1) (payload := fun j => [j]) .init (.write _ _ (.call _ 0 rfl (by simp)) rfl) (w _ fun _ => rfl)
  have r2 := r1.step (.write _ _ (.add _ 0 rfl (by decide)) rfl) (w _ fun _ => rfl)
  have r3 := r2.step (.write _ _ (.loadEmpty _ 0 0 rfl rfl) rfl) (w _ fun _ => rfl)
  have r4 := r3.step (.write _ _ (.casOk _ 0 0 rfl rfl) rfl) (w _ fun _ => rfl)
  have r5 := r4.step (.write _ _ (.copy _ 0 0 rfl) rfl) (w _ fun _ => rfl)
  have r6 := r5.step (.write _ _ (.store _ 0 0 rfl) rfl) (w _ fun _ => rfl)
  have r7 := r6.step (.write _ _ (.incr _ 0 rfl) rfl) (w _ fun _ => rfl)
  have r8 := r7.step (.some _ 0 rfl (by decide)) (al _ 0 fun b hb => by simp [MSt.at, hb])
  have r9 := r8.step (.read _ 0 rfl (by decide)) (al _ 0 fun b hb => by simp [MSt.at, hb])
  have r10 := r9.step (.found _ 0 0 rfl (by decide) (by decide)) (al _ 0 fun b hb => by simp [MSt.at, hb])
  have r11 := r10.step (.view _ 0 0 rfl) (al _ 0 fun b hb => by simp [MSt.at, hb])
  have r12 := r11.step (.clear _ 0 0 rfl) (al _ 0 fun b hb => by simp [MSt.at, hb])
  have n1 := r12.step (.write _ _ (.call _ 1 rfl (by simp)) rfl) (al _ 0 fun b hb => by simp [MSt.at, hb])
  have n2 := n1.step (.write _ _ (.add _ 1 rfl (by decide)) rfl) (al _ 0 fun b hb => by simp [MSt.at, hb])
  have n3 := n2.step (.write _ _ (.loadEmpty _ 1 1 rfl rfl) rfl) (al _ 0 fun b hb => by simp [MSt.at, hb])
  have n4 := n3.step (.write _ _ (.casOk _ 1 1 rfl rfl) rfl) (al _ 0 fun b hb => by simp [MSt.at, hb])
  have n5 := n4.step (.write _ _ (.copy _ 1 1 rfl) rfl) (al _ 0 fun b hb => by simp [MSt.at, hb])
  have n6 := n5.step (.write _ _ (.store _ 1 1 rfl) rfl) (al _ 0 fun b hb => by simp [MSt.at, hb])
  have n7 := n6.step (.write _ _ (.incr _ 1 rfl) rfl) (al _ 0 fun b hb => by simp [MSt.at, hb])
  have r13 := n7.step (.decr _ 0 rfl) (al _ 0 fun b hb => by simp [MSt.at, hb])
  have r14 := r13.step (.load _ 0 rfl) (al _ 0 fun b hb => by simp [MSt.at, hb])
  have r15 := r14.step (.store _ 0 0 rfl) (al _ 0 fun b hb => by simp [MSt.at, hb])
  have r16 := r15.step (.some _ 1 rfl (by decide)) (al _ 1 fun b hb => by
    by_cases h0 : b = 0 <;> simp [MSt.at, hb, h0])
  exact ⟨_, r16, rfl, rfl⟩

end Verif.DecMulti
