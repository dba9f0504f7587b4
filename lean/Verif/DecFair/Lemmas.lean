import Verif.DecFair.Spec
import Verif.Decouple.Wrap
/-!
# Lemmas for C130
-/
namespace Verif.DecFair
open Verif.Decouple

variable {α : Type} {size : Nat} {payload : Nat → List α} {s s' : St α} {σ : Nat → St α} {j k n : Nat}

/-! ## Invariants without a bound on the tickets -/

/-- The tickets that are about to be stored are no marks. -/
def Clean (s : St α) : Prop := ∀ j ts, s.wpc j = .store ts → ts ≠ emptyL ∧ ts ≠ busyL

structure Base (size : Nat) (s : St α) (own : Nat → Nat) : Prop where
  att : s.wr = (s.attempts + (W - 1)) % W
  hold : ∀ j ts, (s.wpc j).holds = some ts → s.lock (slot size ts) = busyL ∧ own (slot size ts) = j
  held : ∀ i, s.lock i = busyL → ∃ j ts, (s.wpc j).holds = some ts ∧ slot size ts = i
  rdr : ∀ i, s.rpc.on = some i → full (s.lock i) = true

theorem base_init : Base size (init : St α) (fun _ => 0) := by
  have hne : emptyL ≠ busyL := by decide
  constructor <;> simp [init, WPc.holds, RPc.on, hne]

/-- A step of a writer that neither locks nor unlocks. -/
theorem Base.quiet {own : Nat → Nat} (b : Base size s own) {p : WPc} (h0 : (s.wpc k).holds = none) (hp : p.holds = none) :
    Base size (s.at k p) own := by
  obtain ⟨b1, b2, b3, b4⟩ := b
  refine ⟨b1, fun j ts h => ?_, fun i h => ?_, b4⟩
  · by_cases e : j = k
    · subst e; simp [St.at, hp] at h
    · simp only [St.at, e, if_false] at h; exact b2 j ts h
  · obtain ⟨j, ts, h1, h2⟩ := b3 i h
    have e : j ≠ k := by rintro rfl; rw [h0] at h1; cases h1
    exact ⟨j, ts, by simp [St.at, e, h1], h2⟩

theorem base_step {own : Nat → Nat} (b : Base size s own) (hc : Clean s) (st : Step size payload s s') :
    ∃ own, Base size s' own := by
  have hfe : full emptyL = false := by decide
  have hfb : full busyL = false := by decide
  have hne : emptyL ≠ busyL := by decide
  cases st with
  | callEmpty j h h1 => exact ⟨_, b.quiet (by rw [h]; rfl) rfl⟩
  | call j h h1 => exact ⟨_, b.quiet (by rw [h]; rfl) rfl⟩
  | add j h h1 =>
    have b' : Base size { s with wr := (s.wr + 1) % W, attempts := s.attempts + 1 } own :=
      ⟨by simp only [b.att]; unfold W; omega, b.hold, b.held, b.rdr⟩
    exact ⟨_, b'.quiet (by simp only [h]; rfl) rfl⟩
  | addCrash j h h1 => exact ⟨own, b.att, b.hold, b.held, b.rdr⟩
  | loadEmpty j ts h h1 => exact ⟨_, b.quiet (by rw [h]; rfl) rfl⟩
  | loadBusy j ts h h1 => exact ⟨_, b.quiet (by rw [h]; rfl) rfl⟩
  | loadFull j ts h h1 h2 => exact ⟨_, b.quiet (by rw [h]; rfl) rfl⟩
  | casOk j ts h h1 =>
    obtain ⟨b1, b2, b3, b4⟩ := b
    refine ⟨fun i => if i = slot size ts then j else own i, b1, fun k tk hk => ?_, fun i hi => ?_, fun i hi => ?_⟩
    · by_cases e : k = j
      · subst e
        simp [St.at, WPc.holds] at hk
        subst hk
        simp [St.at]
      · simp only [St.at, e, if_false] at hk
        obtain ⟨g1, g2⟩ := b2 k tk hk
        have : slot size tk ≠ slot size ts := fun h' => by rw [h', h1] at g1; exact hne g1
        simp [St.at, this, g1, g2]
    · by_cases e : i = slot size ts
      · exact ⟨j, ts, by simp [St.at, WPc.holds], e.symm⟩
      · simp only [St.at, e, if_false] at hi
        obtain ⟨k, tk, g1, g2⟩ := b3 i hi
        have : k ≠ j := by rintro rfl; rw [h] at g1; cases g1
        exact ⟨k, tk, by simp [St.at, this, g1], g2⟩
    · have g := b4 i hi
      have : i ≠ slot size ts := by rintro rfl; rw [h1, hfe] at g; cases g
      simpa [St.at, this] using g
  | casFail j ts h h1 => exact ⟨_, b.quiet (by rw [h]; rfl) rfl⟩
  | copy j ts h =>
    obtain ⟨b1, b2, b3, b4⟩ := b
    refine ⟨own, b1, fun k tk hk => ?_, fun i hi => ?_, b4⟩
    · by_cases e : k = j
      · subst e
        simp [St.at, WPc.holds] at hk
        subst hk
        exact b2 k ts (by rw [h]; rfl)
      · simp only [St.at, e, if_false] at hk
        exact b2 k tk hk
    · obtain ⟨k, tk, g1, g2⟩ := b3 i hi
      by_cases e : k = j
      · subst e
        rw [h] at g1
        exact ⟨k, tk, by simpa [St.at, WPc.holds] using g1, g2⟩
      · exact ⟨k, tk, by simp [St.at, e, g1], g2⟩
  | store j ts h =>
    obtain ⟨b1, b2, b3, b4⟩ := b
    obtain ⟨o1, o2⟩ := b2 j ts (by rw [h]; rfl)
    obtain ⟨c1, c2⟩ := hc j ts h
    refine ⟨own, b1, fun k tk hk => ?_, fun i hi => ?_, fun i hi => ?_⟩
    · by_cases e : k = j
      · subst e
        simp [St.at, WPc.holds] at hk
      · simp only [St.at, e, if_false] at hk
        obtain ⟨g1, g2⟩ := b2 k tk hk
        have : slot size tk ≠ slot size ts := fun h' => e (by rw [← g2, h', o2])
        simp [St.at, this, g1, g2]
    · by_cases e : i = slot size ts
      · simp [St.at, e, c2] at hi
      · simp only [St.at, e, if_false] at hi
        obtain ⟨k, tk, g1, g2⟩ := b3 i hi
        have : k ≠ j := by rintro rfl; rw [h] at g1; cases g1; exact e g2.symm
        exact ⟨k, tk, by simp [St.at, this, g1], g2⟩
    · have g := b4 i hi
      have : i ≠ slot size ts := by rintro rfl; rw [o1, hfb] at g; cases g
      simpa [St.at, this] using g
  | incr j h =>
    have b' : Base size { s with len := (s.len + 1) % W } own := ⟨b.att, b.hold, b.held, b.rdr⟩
    exact ⟨_, b'.quiet (by simp only [h]; rfl) rfl⟩
  | chkFull j h h1 => exact ⟨_, b.quiet (by rw [h]; rfl) rfl⟩
  | chkRetry j h h1 => exact ⟨_, b.quiet (by rw [h]; rfl) rfl⟩
  | nextNone h h1 => exact ⟨_, b⟩
  | nextCrash h h1 h2 => exact ⟨own, b.att, b.hold, b.held, b.rdr⟩
  | next h h1 h2 => exact ⟨own, b.att, b.hold, b.held, fun i h => by simp [RPc.on] at h⟩
  | spinWait i h h1 => exact ⟨_, b⟩
  | spinEnd i h h1 h2 =>
    refine ⟨own, b.att, b.hold, b.held, fun x hx => ?_⟩
    simp [RPc.on] at hx
    subst hx
    exact (full_iff _).2 ⟨h1, h2⟩
  | view i h =>
    refine ⟨own, b.att, b.hold, b.held, fun x hx => ?_⟩
    simp [RPc.on] at hx
    subst hx
    exact b.rdr i (by rw [h]; rfl)
  | clear i h =>
    obtain ⟨b1, b2, b3, b4⟩ := b
    have g := b4 i (by rw [h]; rfl)
    refine ⟨own, b1, fun k tk hk => ?_, fun x hx => ?_, fun x hx => by simp [RPc.on] at hx⟩
    · obtain ⟨g1, g2⟩ := b2 k tk hk
      have : slot size tk ≠ i := by rintro rfl; rw [g1, hfb] at g; cases g
      simp [this, g1, g2]
    · by_cases e : x = i
      · simp [e, hne] at hx
      · simp only [e, if_false] at hx; exact b3 x hx
  | decr h => exact ⟨own, b.att, b.hold, b.held, fun i h => by simp [RPc.on] at h⟩

theorem cnt_step' {own inc fl} (hs : size ≠ 0) (hz : size < W - 2) (n : Base size s own) (hc : Clean s)
    (c : Cnt size s inc fl) (st : Step size payload s s') : ∃ inc fl, Cnt size s' inc fl := by
  have hfe : full emptyL = false := by decide
  have hfb : full busyL = false := by decide
  have cle := c.le
  have upd : ∀ j q, s.wpc j ≠ .incr → q ≠ WPc.incr → ∀ i, (if i = j then q else s.wpc i) = .incr ↔ s.wpc i = .incr := by
    intro j q h1 h2 i
    by_cases h : i = j
    · subst h; simp [h1, h2]
    · simp [h]
  cases st with
  | callEmpty j h h1 => exact c.same (upd _ _ (by simp [h]) (by simp)) (fun _ => rfl) rfl Iff.rfl c.pos c.ok
  | call j h h1 => exact c.same (upd _ _ (by simp [h]) (by simp)) (fun _ => rfl) rfl Iff.rfl c.pos c.ok
  | add j h h1 => exact c.same (upd _ _ (by simp [h]) (by simp)) (fun _ => rfl) rfl Iff.rfl c.pos c.ok
  | addCrash j h h1 => exact c.same (fun _ => Iff.rfl) (fun _ => rfl) rfl Iff.rfl c.pos (fun h => absurd h1 h)
  | loadEmpty j ts h h1 => exact c.same (upd _ _ (by simp [h]) (by simp)) (fun _ => rfl) rfl Iff.rfl c.pos c.ok
  | loadBusy j ts h h1 => exact c.same (upd _ _ (by simp [h]) (by simp)) (fun _ => rfl) rfl Iff.rfl c.pos c.ok
  | loadFull j ts h h1 h2 => exact c.same (upd _ _ (by simp [h]) (by simp)) (fun _ => rfl) rfl Iff.rfl c.pos c.ok
  | casOk j ts h h1 =>
    refine c.same (upd _ _ (by simp [h]) (by simp)) (fun i => ?_) rfl Iff.rfl c.pos c.ok
    simp only [St.at]
    split
    · subst i; rw [hfb, h1, hfe]
    · rfl
  | casFail j ts h h1 => exact c.same (upd _ _ (by simp [h]) (by simp)) (fun _ => rfl) rfl Iff.rfl c.pos c.ok
  | copy j ts h => exact c.same (upd _ _ (by simp [h]) (by simp)) (fun _ => rfl) rfl Iff.rfl c.pos c.ok
  | store j ts h =>
    obtain ⟨c1, c2, c3, c4, c5, c6, c7, c8⟩ := c
    obtain ⟨g1, _⟩ := n.hold j ts (by rw [h]; rfl)
    have hts : full ts = true := (full_iff _).2 (hc j ts h)
    have hnf : slot size ts ∉ fl := fun h' => by rw [c4, g1, hfb] at h'; cases h'
    refine ⟨j :: inc, slot size ts :: fl, List.nodup_cons.2 ⟨fun h' => ?_, c1⟩, fun i => ?_, List.nodup_cons.2 ⟨hnf, c3⟩, fun i => ?_,
      fun i hi => ?_, ?_, c7, c8⟩
    · rw [c2, h] at h'; cases h'
    · simp only [St.at, List.mem_cons, c2]
      by_cases e : i = j <;> simp [e]
    · simp only [St.at, List.mem_cons, c4]
      by_cases e : i = slot size ts
      · simp [e, hts]
      · simp [e]
    · rcases List.mem_cons.1 hi with e | hi
      · rw [e]; exact Nat.mod_lt _ (Nat.pos_of_ne_zero hs)
      · exact c5 i hi
    · simp only [St.at, List.length_cons] at c6 ⊢
      omega
  | incr j h =>
    obtain ⟨c1, c2, c3, c4, c5, c6, c7, c8⟩ := c
    have hm := (c2 j).2 h
    have hl := List.length_pos_of_mem hm
    have hlen : (s.len + 1) % W = s.len + 1 := Nat.mod_eq_of_lt (by omega)
    refine ⟨inc.erase j, fl, c1.erase j, fun i => ?_, c3, c4, c5, ?_, fun _ => ?_, c8⟩
    · rw [c1.mem_erase_iff, c2]
      by_cases e : i = j <;> simp [St.at, e]
    · simp only [St.at, hlen, List.length_erase_of_mem hm]
      omega
    · simp only [St.at, hlen]; omega
  | chkFull j h h1 => exact c.same (upd _ _ (by simp [h]) (by simp)) (fun _ => rfl) rfl Iff.rfl c.pos c.ok
  | chkRetry j h h1 => exact c.same (upd _ _ (by simp [h]) (by simp)) (fun _ => rfl) rfl Iff.rfl c.pos c.ok
  | nextNone h h1 => exact ⟨_, _, c⟩
  | nextCrash h h1 h2 => exact c.same (fun _ => Iff.rfl) (fun _ => rfl) rfl Iff.rfl c.pos (fun h => absurd h2 h)
  | next h h1 h2 =>
    exact c.same (fun _ => Iff.rfl) (fun _ => rfl) rfl (by simp [h]) (fun _ => Nat.pos_of_ne_zero h1) c.ok
  | spinWait i h h1 => exact ⟨_, _, c⟩
  | spinEnd i h h1 h2 =>
    exact c.same (fun _ => Iff.rfl) (fun _ => rfl) rfl (by simp [h]) (fun _ => c.pos (by rw [h]; rfl)) c.ok
  | view i h =>
    exact c.same (fun _ => Iff.rfl) (fun _ => rfl) rfl (by simp [h]) (fun _ => c.pos (by rw [h]; rfl)) c.ok
  | clear i h =>
    obtain ⟨c1, c2, c3, c4, c5, c6, c7, c8⟩ := c
    have hm := (c4 i).2 (n.rdr i (by rw [h]; rfl))
    have hl := List.length_pos_of_mem hm
    refine ⟨inc, fl.erase i, c1, c2, c3.erase i, fun x => ?_, fun x hx => c5 x (List.mem_of_mem_erase hx), ?_,
      fun _ => c7 (by rw [h]; rfl), c8⟩
    · rw [c3.mem_erase_iff, c4]
      by_cases e : x = i <;> simp [e, hfe]
    · simp only [h] at c6
      simp only [List.length_erase_of_mem hm, if_true]
      simp at c6
      omega
  | decr h =>
    obtain ⟨c1, c2, c3, c4, c5, c6, c7, c8⟩ := c
    have hp := c7 (by rw [h]; rfl)
    have hlen : (s.len + (W - 1)) % W = s.len - 1 := by unfold W at *; omega
    refine ⟨inc, fl, c1, c2, c3, c4, c5, ?_, fun h' => absurd h' (by simp [RPc.busy]), c8⟩
    simp only [h, if_true] at c6
    simp only [hlen]
    simp
    omega

/-- The invariants hold throughout. -/
theorem invs (hs : size ≠ 0) (hz : size < W - 2) (e : Exec size payload σ) (hc : NoMarks σ) (n : Nat) :
    (∃ own, Base size (σ n) own) ∧ ∃ inc fl, Cnt size (σ n) inc fl := by
  induction n with
  | zero => rw [e.start]; exact ⟨⟨_, base_init⟩, _, _, cnt_init⟩
  | succ n ih =>
    obtain ⟨⟨own, b⟩, inc, fl, c⟩ := ih
    rcases e.next n with st | st
    · exact ⟨base_step b (hc n) st, cnt_step' hs hz b (hc n) c st⟩
    · rw [st]; exact ⟨⟨_, b⟩, _, _, c⟩

/-! ## Single steps -/

/-- How far a `Write` is; a spin does not count. -/
def rank : WPc → Nat
  | .new => 5
  | .add => 4
  | .load _ => 4
  | .cas _ => 4
  | .chk => 4
  | .copy _ => 3
  | .store _ => 2
  | .incr => 1
  | .accepted => 0
  | .dropped => 0

theorem at_wpc (s : St α) (k j : Nat) (p : WPc) : (s.at k p).wpc j = if j = k then p else s.wpc j := rfl

theorem rank_step (st : Step size payload s s') (j : Nat) : rank (s'.wpc j) ≤ rank (s.wpc j) := by
  have key : ∀ (a : St α) (k : Nat) (p : WPc), a.wpc = s.wpc → rank p ≤ rank (s.wpc k) → rank ((a.at k p).wpc j) ≤ rank (s.wpc j) := by
    intro a k p h1 h2
    rw [at_wpc, h1]
    split
    · subst j; exact h2
    · exact Nat.le_refl _
  cases st with
  | callEmpty k h => exact key s _ _ rfl (by rw [h]; decide)
  | call k h => exact key s _ _ rfl (by rw [h]; decide)
  | add k h => exact key _ _ _ rfl (by rw [h]; simp [rank])
  | loadEmpty k ts h => exact key s _ _ rfl (by rw [h]; simp [rank])
  | loadBusy k ts h => exact key s _ _ rfl (by rw [h]; simp [rank])
  | loadFull k ts h => exact key s _ _ rfl (by rw [h]; simp [rank])
  | casOk k ts h => exact key _ _ _ rfl (by rw [h]; simp [rank])
  | casFail k ts h => exact key s _ _ rfl (by rw [h]; simp [rank])
  | copy k ts h => exact key _ _ _ rfl (by rw [h]; simp [rank])
  | store k ts h => exact key _ _ _ rfl (by rw [h]; simp [rank])
  | incr k h => exact key _ _ _ rfl (by rw [h]; simp [rank])
  | chkFull k h => exact key s _ _ rfl (by rw [h]; simp [rank])
  | chkRetry k h => exact key s _ _ rfl (by rw [h]; simp [rank])
  | _ => exact Nat.le_refl _

/-- A step that moves call `j`. -/
inductive Move (size : Nat) (s s' : St α) : WPc → WPc → Prop where
  | begin {p} : Move size s s' .new p
  | add : s'.attempts = s.attempts + 1 → Move size s s' .add (.load ((s.wr + 1) % W))
  | empty {ts} : s.lock (slot size ts) = emptyL → Move size s s' (.load ts) (.cas ts)
  | busy {ts} : s.lock (slot size ts) = busyL → Move size s s' (.load ts) .add
  | full {ts} : full (s.lock (slot size ts)) = true → Move size s s' (.load ts) .chk
  | casOk {ts} : Move size s s' (.cas ts) (.copy ts)
  | casFail {ts} : s.lock (slot size ts) ≠ emptyL → Move size s s' (.cas ts) .add
  | copy {ts} : Move size s s' (.copy ts) (.store ts)
  | store {ts} : Move size s s' (.store ts) .incr
  | incr : Move size s s' .incr .accepted
  | drop : Move size s s' .chk .dropped
  | retry : s.len ≠ size → Move size s s' .chk .add

theorem move_step (st : Step size payload s s') (hne : s'.wpc j ≠ s.wpc j) : Move size s s' (s.wpc j) (s'.wpc j) := by
  have key : ∀ (a : St α) (k : Nat) (p : WPc), s' = a.at k p → a.wpc = s.wpc → Move size s s' (s.wpc k) p →
      Move size s s' (s.wpc j) (s'.wpc j) := by
    intro a k p h2 h1 h3
    have e : j = k := by
      by_contra e
      rw [h2, at_wpc, if_neg e, h1] at hne
      exact hne rfl
    subst e
    have : s'.wpc j = p := by rw [h2, at_wpc, if_pos rfl]
    rw [this]; exact h3
  cases st with
  | callEmpty k h => exact key s k _ rfl rfl (by rw [h]; exact .begin)
  | call k h => exact key s k _ rfl rfl (by rw [h]; exact .begin)
  | add k h => exact key _ k _ rfl rfl (by rw [h]; exact .add rfl)
  | loadEmpty k ts h h1 => exact key s k _ rfl rfl (by rw [h]; exact .empty h1)
  | loadBusy k ts h h1 => exact key s k _ rfl rfl (by rw [h]; exact .busy h1)
  | loadFull k ts h h1 h2 => exact key s k _ rfl rfl (by rw [h]; exact .full ((full_iff _).2 ⟨h1, h2⟩))
  | casOk k ts h => exact key _ k _ rfl rfl (by rw [h]; exact .casOk)
  | casFail k ts h h1 => exact key s k _ rfl rfl (by rw [h]; exact .casFail h1)
  | copy k ts h => exact key _ k _ rfl rfl (by rw [h]; exact .copy)
  | store k ts h => exact key _ k _ rfl rfl (by rw [h]; exact .store)
  | incr k h => exact key _ k _ rfl rfl (by rw [h]; exact .incr)
  | chkFull k h => exact key s k _ rfl rfl (by rw [h]; exact .drop)
  | chkRetry k h h1 => exact key s k _ rfl rfl (by rw [h]; exact .retry h1)
  | _ => exact absurd rfl hne

/-- A `Write` that has begun and not returned can always take a step. -/
theorem can_move (hs : size ≠ 0) (h : Inside (s.wpc j)) : ∃ s', Step size payload s s' ∧ s'.wpc j ≠ s.wpc j := by
  obtain ⟨h1, h2, h3⟩ := h
  have fin : ∀ (a : St α) (p : WPc), Step size payload s (a.at j p) → p ≠ s.wpc j →
      ∃ s', Step size payload s s' ∧ s'.wpc j ≠ s.wpc j :=
    fun a p g1 g2 => ⟨_, g1, by rw [at_wpc, if_pos rfl]; exact g2⟩
  cases hp : s.wpc j with
  | new => exact absurd hp h1
  | accepted => exact absurd hp h2
  | dropped => exact absurd hp h3
  | add => rw [← hp]; exact fin _ _ (.add s j hp hs) (by simp [hp])
  | load ts =>
    rw [← hp]
    by_cases e1 : s.lock (slot size ts) = emptyL
    · exact fin _ _ (.loadEmpty s j ts hp e1) (by simp [hp])
    · by_cases e2 : s.lock (slot size ts) = busyL
      · exact fin _ _ (.loadBusy s j ts hp e2) (by simp [hp])
      · exact fin _ _ (.loadFull s j ts hp e1 e2) (by simp [hp])
  | cas ts =>
    rw [← hp]
    by_cases e1 : s.lock (slot size ts) = emptyL
    · exact fin _ _ (.casOk s j ts hp e1) (by simp [hp])
    · exact fin _ _ (.casFail s j ts hp e1) (by simp [hp])
  | copy ts => rw [← hp]; exact fin _ _ (.copy s j ts hp) (by simp [hp])
  | store ts => rw [← hp]; exact fin _ _ (.store s j ts hp) (by simp [hp])
  | incr => rw [← hp]; exact fin _ _ (.incr s j hp) (by simp [hp])
  | chk =>
    rw [← hp]
    by_cases e1 : s.len = size
    · exact fin _ _ (.chkFull s j hp e1) (by simp [hp])
    · exact fin _ _ (.chkRetry s j hp e1) (by simp [hp])

theorem att_change (st : Step size payload s s') : s'.attempts = s.attempts ∨
    s'.attempts = s.attempts + 1 ∧ ∃ k, s'.wpc k = .load ((s.wr + 1) % W) := by
  cases st <;> first | exact .inl rfl | exact .inr ⟨rfl, _, by rw [at_wpc, if_pos rfl]⟩

/-! ## Executions -/

/-- A `Write` that has begun and not returned takes a step. -/
theorem moves (hs : size ≠ 0) (e : Exec size payload σ) (f : FairWriters size payload σ) (h : Inside ((σ n).wpc j)) :
    ∃ m, n ≤ m ∧ (σ m).wpc j = (σ n).wpc j ∧ Move size (σ m) (σ (m + 1)) ((σ m).wpc j) ((σ (m + 1)).wpc j) := by
  by_contra hc
  have stay : ∀ d, (σ (n + d)).wpc j = (σ n).wpc j := by
    intro d
    induction d with
    | zero => rfl
    | succ d ih =>
      by_contra hne
      rcases e.next (n + d) with st | st
      · refine hc ⟨n + d, by omega, ih, move_step st fun h' => hne ?_⟩
        rw [← ih, ← h']; rfl
      · exact hne (by rw [show n + (d + 1) = n + d + 1 by omega, st]; exact ih)
  have stay' : ∀ m, n ≤ m → (σ m).wpc j = (σ n).wpc j := fun m hm => by
    have := stay (m - n)
    rwa [show n + (m - n) = m by omega] at this
  obtain ⟨m, hm, hne⟩ := f j n (fun m hm => by
    have hi : Inside ((σ m).wpc j) := by rw [stay' m hm]; exact h
    exact ⟨hi, can_move hs hi⟩)
  exact hne (by rw [stay' m hm, stay' (m + 1) (by omega)])

theorem rank_next (e : Exec size payload σ) (n j : Nat) : rank ((σ (n + 1)).wpc j) ≤ rank ((σ n).wpc j) := by
  rcases e.next n with st | st
  · exact rank_step st j
  · rw [st]

/-- A number that does not grow comes to rest. -/
theorem rest (f : Nat → Nat) (N : Nat) (h : ∀ n, N ≤ n → f (n + 1) ≤ f n) : ∃ M, N ≤ M ∧ ∀ n, M ≤ n → f n = f M := by
  have key : ∀ v M, N ≤ M → f M ≤ v → ∃ M', M ≤ M' ∧ ∀ n, M' ≤ n → f n = f M' := by
    intro v
    induction v with
    | zero =>
      intro M hM hv
      refine ⟨M, Nat.le_refl _, fun n hn => ?_⟩
      induction n, hn using Nat.le_induction with
      | base => rfl
      | succ n hn ih => have := h n (by omega); omega
    | succ v ih =>
      intro M hM hv
      by_cases hx : ∃ n, M ≤ n ∧ f n ≤ v
      · obtain ⟨n, h1, h2⟩ := hx
        obtain ⟨M', h3, h4⟩ := ih n (by omega) h2
        exact ⟨M', by omega, h4⟩
      · have hx' : ∀ n, M ≤ n → v < f n := fun n hn => by
          by_contra hh; exact hx ⟨n, hn, by omega⟩
        refine ⟨M, Nat.le_refl _, fun n hn => ?_⟩
        induction n, hn using Nat.le_induction with
        | base => rfl
        | succ n hn ih =>
          have := h n (by omega)
          have := hx' (n + 1) (by omega)
          have := hx' M (by omega)
          omega
  obtain ⟨M, h1, h2⟩ := key (f N) N (Nat.le_refl _) (Nat.le_refl _)
  exact ⟨M, h1, h2⟩

/-- Finitely many numbers that do not grow come to rest. -/
theorem rest_all (f : Nat → Nat → Nat) (N : Nat) (h : ∀ j n, N ≤ n → f j (n + 1) ≤ f j n) (K : Nat) :
    ∃ M, N ≤ M ∧ ∀ j, j < K → ∀ n, M ≤ n → f j n = f j M := by
  induction K with
  | zero => exact ⟨N, Nat.le_refl _, fun j hj => by omega⟩
  | succ K ih =>
    obtain ⟨M, h1, h2⟩ := ih
    obtain ⟨M', h3, h4⟩ := rest (f K) M (fun n hn => h K n (by omega))
    refine ⟨M', by omega, fun j hj n hn => ?_⟩
    by_cases e : j = K
    · subst e; exact h4 n hn
    · rw [h2 j (by omega) n (by omega), h2 j (by omega) M' h3]

/-- A `Write` that has taken a slot is accepted. -/
theorem accepted_of (hs : size ≠ 0) (e : Exec size payload σ) (f : FairWriters size payload σ)
    (h : ((σ n).wpc j).holds ≠ none ∨ (σ n).wpc j = .incr) : ∃ m, (σ m).wpc j = .accepted := by
  have go : ∀ n p q, (σ n).wpc j = p → Inside p → (∀ a b q', Move size (α := α) a b p q' → q' = q) → ∃ m, (σ m).wpc j = q := by
    intro n p q hp hi hq
    obtain ⟨m, h1, h2, h3⟩ := moves hs e f (n := n) (j := j) (by rw [hp]; exact hi)
    rw [h2, hp] at h3
    exact ⟨m + 1, hq _ _ _ h3⟩
  have i1 : ∀ n, (σ n).wpc j = .incr → ∃ m, (σ m).wpc j = .accepted := fun n hp =>
    go n _ _ hp (by simp [Inside]) (fun a b q h => by cases h; rfl)
  have i2 : ∀ n ts, (σ n).wpc j = .store ts → ∃ m, (σ m).wpc j = .accepted := fun n ts hp => by
    obtain ⟨m, hm⟩ := go n _ .incr hp (by simp [Inside]) (fun a b q h => by cases h; rfl)
    exact i1 m hm
  rcases h with h | h
  · cases hp : (σ n).wpc j with
    | copy ts =>
      obtain ⟨m, hm⟩ := go n _ (.store ts) hp (by simp [Inside]) (fun a b q h => by cases h; rfl)
      exact i2 m ts hm
    | store ts => exact i2 n ts hp
    | _ => rw [hp] at h; exact absurd rfl h
  · exact i1 n h

/-- From some moment on, every `Write` has not begun, has returned, or spins. -/
theorem settle (hs : size ≠ 0) (e : Exec size payload σ) (f : FairWriters size payload σ) (hK : FewAccepted σ) :
    ∃ N, ∀ j n, N ≤ n → ((σ n).wpc j).holds = none ∧ (σ n).wpc j ≠ .incr := by
  obtain ⟨K, hK⟩ := hK
  obtain ⟨N, -, hN⟩ := rest_all (fun j n => rank ((σ n).wpc j)) 0 (fun j n _ => rank_next e n j) K
  refine ⟨N, fun j n hn => ?_⟩
  by_cases hj : j < K
  · have fixed : ∀ m, n ≤ m → rank ((σ m).wpc j) = rank ((σ n).wpc j) := fun m hm => by
      have h1 := hN j hj m (by omega)
      have h2 := hN j hj n hn
      rw [h1, h2]
    have no : ∀ p, (σ n).wpc j = p → Inside p → (∀ a b q, Move size (α := α) a b p q → rank q ≠ rank p) → False := by
      intro p hp hi hq
      obtain ⟨m, h1, h2, h3⟩ := moves hs e f (n := n) (j := j) (by rw [hp]; exact hi)
      rw [h2, hp] at h3
      refine hq _ _ _ h3 ?_
      rw [fixed (m + 1) (by omega), hp]
    refine ⟨?_, fun h => no _ h (by simp [Inside]) (fun a b q hm => by cases hm; simp [rank])⟩
    cases hp : (σ n).wpc j with
    | copy ts => exact (no _ hp (by simp [Inside]) (fun a b q hm => by cases hm; simp [rank])).elim
    | store ts => exact (no _ hp (by simp [Inside]) (fun a b q hm => by cases hm; simp [rank])).elim
    | _ => rfl
  · by_contra hne
    obtain ⟨m, hm⟩ := accepted_of hs e f (n := n) (j := j) (by
      by_cases h : ((σ n).wpc j).holds = none
      · right
        by_contra h'
        exact hne ⟨h, h'⟩
      · exact .inl h)
    exact hK m j (by omega) hm

theorem full_step {own : Nat → Nat} {inc fl : List Nat} (b : Base size s own) (c : Cnt size s inc fl) (hn : ∀ j, (s.wpc j).holds = none)
    (hn' : ∀ j, (s'.wpc j).holds = none) (st : Step size payload s s') :
    (∀ i, full (s'.lock i) = true → full (s.lock i) = true) ∧
      (s'.rpc = .decr → s.rpc = .decr ∨ ∃ i, i < size ∧ full (s.lock i) = true ∧ full (s'.lock i) = false) := by
  have hfe : full emptyL = false := by decide
  cases st with
  | casOk k ts h h1 =>
    have := hn' k
    rw [at_wpc, if_pos rfl] at this
    cases this
  | store k ts h =>
    have := hn k
    rw [h] at this
    cases this
  | clear i h =>
    have g := b.rdr i (by rw [h]; rfl)
    refine ⟨fun x hx => ?_, fun _ => .inr ⟨i, c.flS i ((c.flM i).2 g), g, by simp [hfe]⟩⟩
    by_cases e : x = i
    · simp [e, hfe] at hx
    · simpa [e] using hx
  | next h => exact ⟨fun _ h => h, fun h => by cases h⟩
  | spinEnd i h => exact ⟨fun _ h => h, fun h => by cases h⟩
  | view i h => exact ⟨fun _ h => h, fun h => by cases h⟩
  | decr h => exact ⟨fun _ h => h, fun h => by cases h⟩
  | _ => exact ⟨fun _ h => h, fun h => .inl h⟩

/-- From some moment on, moreover, the same slots are full, the reader is not about to count down, and every
slot is full or empty. -/
theorem settle_all (hs : size ≠ 0) (hz : size < W - 2) (e : Exec size payload σ) (fw : FairWriters size payload σ)
    (fr : FairReader size payload σ) (hK : FewAccepted σ) (hc : NoMarks σ) :
    ∃ N, (∀ j n, N ≤ n → ((σ n).wpc j).holds = none ∧ (σ n).wpc j ≠ .incr) ∧
      (∀ i n, i < size → N ≤ n → full ((σ n).lock i) = full ((σ N).lock i)) ∧
      (∀ i n, N ≤ n → full ((σ n).lock i) = false → (σ n).lock i = emptyL) ∧
      ∀ n, N ≤ n → (∀ i, i < size → full ((σ n).lock i) = true) → (σ n).len = size := by
  obtain ⟨N, h2⟩ := settle hs e fw hK
  have fstep : ∀ n, N ≤ n → (∀ i, full ((σ (n + 1)).lock i) = true → full ((σ n).lock i) = true) ∧
      ((σ (n + 1)).rpc = .decr → (σ n).rpc = .decr ∨ ∃ i, i < size ∧ full ((σ n).lock i) = true ∧ full ((σ (n + 1)).lock i) = false) := by
    intro n hn
    obtain ⟨⟨own, b⟩, inc, fl, c⟩ := invs hs hz e hc n
    rcases e.next n with st | st
    · exact full_step b c (fun j => (h2 j n hn).1) (fun j => (h2 j (n + 1) (by omega)).1) st
    · rw [st]; exact ⟨fun _ h => h, fun h => .inl h⟩
  obtain ⟨M, hM, h3⟩ := rest_all (fun i n => (full ((σ n).lock i)).toNat) N (fun i n hn => by
    have := (fstep n hn).1 i
    cases ha : full ((σ (n + 1)).lock i) with
    | false => simp
    | true => rw [this ha]) size
  have h3 : ∀ i n, i < size → M ≤ n → full ((σ n).lock i) = full ((σ M).lock i) := fun i n hi hn => by
    have := h3 i hi n hn
    cases ha : full ((σ n).lock i) <;> cases hb : full ((σ M).lock i) <;> simp_all
  have back : ∀ n, M ≤ n → (σ (n + 1)).rpc = .decr → (σ n).rpc = .decr := fun n hn h => by
    rcases (fstep n (by omega)).2 h with h | ⟨i, hi, g1, g2⟩
    · exact h
    · rw [h3 i n hi hn] at g1
      rw [h3 i (n + 1) hi (by omega), g1] at g2
      cases g2
  obtain ⟨L, hL, h4⟩ : ∃ L, M ≤ L ∧ ∀ n, L ≤ n → (σ n).rpc ≠ .decr := by
    by_cases hx : ∃ L, M ≤ L ∧ (σ L).rpc ≠ .decr
    · obtain ⟨L, h5, h6⟩ := hx
      refine ⟨L, h5, fun n hn => ?_⟩
      induction n, hn using Nat.le_induction with
      | base => exact h6
      | succ n hn ih => exact fun h => ih (back n (by omega) h)
    · have hx : ∀ n, M ≤ n → (σ n).rpc = .decr := fun n hn => by
        by_contra h; exact hx ⟨n, hn, h⟩
      obtain ⟨m, h5, h6⟩ := fr M (fun m hm => ⟨by rw [hx m hm]; simp, _, .decr _ (hx m hm), by rw [hx m hm]; simp⟩)
      exact absurd (by rw [hx m h5, hx (m + 1) (by omega)]) h6
  refine ⟨L, fun j n hn => h2 j n (by omega),
    fun i n hi hn => by rw [h3 i n hi (by omega), h3 i L hi hL], fun i n hn hi => ?_, fun n hn ha => ?_⟩
  · by_contra hne
    by_cases hb : (σ n).lock i = busyL
    · obtain ⟨⟨own, b⟩, _⟩ := invs hs hz e hc n
      obtain ⟨j, ts, g, _⟩ := b.held i hb
      rw [(h2 j n (by omega)).1] at g
      cases g
    · rw [(full_iff _).2 ⟨hne, hb⟩] at hi; cases hi
  · obtain ⟨_, inc, fl, c⟩ := invs hs hz e hc n
    have g1 : inc = [] := by
      cases hi : inc with
      | nil => rfl
      | cons x t => exact absurd ((c.incM x).1 (by simp [hi])) (h2 x n (by omega)).2
    have g2 : fl.length ≤ size := nodup_lt c.flN c.flS
    have g3 : size ≤ fl.length := by
      have := List.Subperm.length_le (List.subperm_of_subset (List.nodup_range (n := size))
        (fun i hi => (c.flM i).2 (ha i (List.mem_range.1 hi))))
      simpa using this
    have := c.len
    rw [if_neg (h4 n hn), g1] at this
    simp at this
    omega

/-- A spinning `Write` comes to the top of the loop. -/
theorem to_add (hs : size ≠ 0) (e : Exec size payload σ) (fw : FairWriters size payload σ) {N : Nat}
    (hr : ∀ n, N ≤ n → rank ((σ n).wpc j) = 4) (hn : N ≤ n) : ∃ m, n ≤ m ∧ (σ m).wpc j = .add := by
  have ins : ∀ n, N ≤ n → Inside ((σ n).wpc j) := fun n hn => by
    have := hr n hn
    refine ⟨?_, ?_, ?_⟩ <;> intro h <;> rw [h] at this <;> cases this
  have go : ∀ n, N ≤ n → ∃ m, n ≤ m ∧ (σ m).wpc j = (σ n).wpc j ∧ Move size (σ m) (σ (m + 1)) ((σ n).wpc j) ((σ (m + 1)).wpc j) :=
    fun n hn => by
      obtain ⟨m, h1, h2, h3⟩ := moves hs e fw (ins n hn)
      rw [h2] at h3
      exact ⟨m, h1, h2, h3⟩
  have chk : ∀ n, N ≤ n → (σ n).wpc j = .chk → ∃ m, n ≤ m ∧ (σ m).wpc j = .add := fun n hn h => by
    obtain ⟨m, h1, h2, h3⟩ := go n hn
    rw [h] at h3
    have := hr (m + 1) (by omega)
    generalize hq : (σ (m + 1)).wpc j = q at h3 this
    cases h3 with
    | drop => cases this
    | retry => exact ⟨m + 1, by omega, hq⟩
  have cas : ∀ n ts, N ≤ n → (σ n).wpc j = .cas ts → ∃ m, n ≤ m ∧ (σ m).wpc j = .add := fun n ts hn h => by
    obtain ⟨m, h1, h2, h3⟩ := go n hn
    rw [h] at h3
    have := hr (m + 1) (by omega)
    generalize hq : (σ (m + 1)).wpc j = q at h3 this
    cases h3 with
    | casOk => cases this
    | casFail => exact ⟨m + 1, by omega, hq⟩
  have := hr n hn
  cases hp : (σ n).wpc j with
  | add => exact ⟨n, Nat.le_refl _, hp⟩
  | chk => exact chk n hn hp
  | cas ts => exact cas n ts hn hp
  | load ts =>
    obtain ⟨m, h1, h2, h3⟩ := go n hn
    rw [hp] at h3
    generalize hq : (σ (m + 1)).wpc j = q at h3
    cases h3 with
    | empty =>
      obtain ⟨m', h4, h5⟩ := cas (m + 1) ts (by omega) hq
      exact ⟨m', by omega, h5⟩
    | busy => exact ⟨m + 1, by omega, hq⟩
    | full =>
      obtain ⟨m', h4, h5⟩ := chk (m + 1) (by omega) hq
      exact ⟨m', by omega, h5⟩
  | _ => rw [hp] at this; cases this

theorem wr_next (a : Nat) : ((a + (W - 1)) % W + 1) % W = a % W := by
  unfold W; omega

/-- While a `Write` spins, every ticket comes up again. -/
theorem ticket (hs : size ≠ 0) (hz : size < W - 2) (e : Exec size payload σ) (fw : FairWriters size payload σ) (hc : NoMarks σ) {N : Nat}
    (hr : ∀ n, N ≤ n → rank ((σ n).wpc j) = 4) {r : Nat} (hw : r < W) : ∃ m k, N ≤ m ∧ (σ m).wpc k = .load r := by
  have step1 : ∀ n, (σ (n + 1)).attempts = (σ n).attempts ∨
      (σ (n + 1)).attempts = (σ n).attempts + 1 ∧ ∃ k, (σ (n + 1)).wpc k = .load (((σ n).wr + 1) % W) := fun n => by
    rcases e.next n with st | st
    · exact att_change st
    · rw [st]; exact .inl rfl
  have mono : ∀ n m, n ≤ m → (σ n).attempts ≤ (σ m).attempts := fun n m h => by
    induction m, h using Nat.le_induction with
    | base => exact Nat.le_refl _
    | succ m _ ih => rcases step1 m with g | ⟨g, _⟩ <;> omega
  have unb : ∀ a, ∃ m, N ≤ m ∧ a ≤ (σ m).attempts := fun a => by
    induction a with
    | zero => exact ⟨N, Nat.le_refl _, Nat.zero_le _⟩
    | succ a ih =>
      obtain ⟨m, h1, h2⟩ := ih
      obtain ⟨m', h3, h4⟩ := to_add hs e fw hr h1
      obtain ⟨m'', h5, h6, h7⟩ := moves hs e fw (n := m') (j := j) (by rw [h4]; simp [Inside])
      rw [h6, h4] at h7
      have := mono m m'' (by omega)
      generalize (σ (m'' + 1)).wpc j = q at h7
      cases h7 with
      | add h8 => exact ⟨m'' + 1, by omega, by omega⟩
  obtain ⟨a, ha, har⟩ : ∃ a, (σ N).attempts ≤ a ∧ a % W = r :=
    ⟨(σ N).attempts * W + r, by unfold W; omega, by rw [Nat.mul_comm, Nat.mul_add_mod, Nat.mod_eq_of_lt hw]⟩
  obtain ⟨m, h1, h2⟩ := unb (a + 1)
  have cross : ∀ d, (σ (N + d)).attempts ≤ a ∨ ∃ n k, N ≤ n ∧ (σ n).wpc k = .load r := by
    intro d
    induction d with
    | zero => exact .inl ha
    | succ d ih =>
      rcases ih with ih | ih
      · rcases step1 (N + d) with g | ⟨g, k, hk⟩
        · exact .inl (by rw [← Nat.add_assoc, g]; exact ih)
        · by_cases he : (σ (N + d)).attempts = a
          · obtain ⟨⟨own, b⟩, _⟩ := invs hs hz e hc (N + d)
            refine .inr ⟨N + d + 1, k, by omega, ?_⟩
            rw [hk, b.att, he, wr_next, har]
          · exact .inl (by rw [← Nat.add_assoc]; omega)
      · exact .inr ih
  rcases cross (m - N) with h | ⟨n, k, h3, h4⟩
  · rw [show N + (m - N) = m by omega] at h; omega
  · exact ⟨n, k, h3, h4⟩

theorem returns (hs : size ≠ 0) (hz : size < W - 2) (e : Exec size payload σ) (fw : FairWriters size payload σ)
    (fr : FairReader size payload σ) (hK : FewAccepted σ) (hc : NoMarks σ) : AllReturn σ := by
  intro n j hi
  by_contra hno
  obtain ⟨N, h1, h2, h3, h4⟩ := settle_all hs hz e fw fr hK hc
  have mono : ∀ a b, a ≤ b → rank ((σ b).wpc j) ≤ rank ((σ a).wpc j) := fun a b h => by
    induction b, h using Nat.le_induction with
    | base => exact Nat.le_refl _
    | succ b _ ih => exact Nat.le_trans (rank_next e b j) ih
  have hr : ∀ m, max N n ≤ m → rank ((σ m).wpc j) = 4 := fun m hm => by
    have g1 := mono n m (by omega)
    have g2 : rank ((σ n).wpc j) ≤ 4 := by
      cases hp : (σ n).wpc j with
      | new => exact absurd hp hi.1
      | _ => simp [rank]
    obtain ⟨g3, g4⟩ := h1 j m (by omega)
    cases hp : (σ m).wpc j with
    | new => rw [hp] at g1; exact absurd (Nat.le_trans g1 g2) (by decide)
    | copy ts => rw [hp] at g3; cases g3
    | store ts => rw [hp] at g3; cases g3
    | incr => exact absurd hp g4
    | accepted => exact absurd ⟨m, by omega, .inl hp⟩ hno
    | dropped => exact absurd ⟨m, by omega, .inr hp⟩ hno
    | _ => rfl
  generalize hM : max N n = M at hr
  have slt : ∀ ts, slot size ts < size := fun ts => Nat.mod_lt _ (Nat.pos_of_ne_zero hs)
  by_cases hf : ∀ i, i < size → full ((σ N).lock i) = true
  · -- all slots are full: the call drops
    have hf' : ∀ m, N ≤ m → ∀ i, i < size → full ((σ m).lock i) = true := fun m hm i hi => by rw [h2 i m hi hm]; exact hf i hi
    obtain ⟨m1, g1, g2⟩ := to_add hs e fw hr (Nat.le_refl M)
    obtain ⟨m2, g3, g4, g5⟩ := moves hs e fw (n := m1) (j := j) (by rw [g2]; simp [Inside])
    rw [g4, g2] at g5
    generalize hq : (σ (m2 + 1)).wpc j = q at g5
    cases g5 with
    | add =>
      obtain ⟨m3, g6, g7, g8⟩ := moves hs e fw (n := m2 + 1) (j := j) (by rw [hq]; simp [Inside])
      rw [g7, hq] at g8
      have fl := (full_iff _).1 (hf' m3 (by omega) _ (slt (((σ m2).wr + 1) % W)))
      generalize hq' : (σ (m3 + 1)).wpc j = q' at g8
      cases g8 with
      | empty h => exact fl.1 h
      | busy h => exact fl.2 h
      | full =>
        obtain ⟨m4, g9, g10, g11⟩ := moves hs e fw (n := m3 + 1) (j := j) (by rw [hq']; simp [Inside])
        rw [g10, hq'] at g11
        generalize hq'' : (σ (m4 + 1)).wpc j = q'' at g11
        cases g11 with
        | drop => exact hno ⟨m4 + 1, by omega, .inr hq''⟩
        | retry h => exact h (h4 m4 (by omega) (hf' m4 (by omega)))
  · -- there is an empty slot: the call that gets its number takes it
    obtain ⟨i, hil, hie⟩ : ∃ i, i < size ∧ full ((σ N).lock i) = false := by
      by_contra hx
      refine hf fun i hi => ?_
      cases hb : full ((σ N).lock i) with
      | true => rfl
      | false => exact absurd ⟨i, hi, hb⟩ hx
    have he : ∀ m, N ≤ m → (σ m).lock (slot size i) = emptyL := fun m hm => by
      rw [show slot size i = i from Nat.mod_eq_of_lt hil]
      exact h3 i m hm (by rw [h2 i m hil hm]; exact hie)
    obtain ⟨m, k, g1, g2⟩ := ticket hs hz e fw hc hr (r := i) (by unfold W at *; omega)
    obtain ⟨m2, g3, g4, g5⟩ := moves hs e fw (n := m) (j := k) (by rw [g2]; simp [Inside])
    rw [g4, g2] at g5
    have el := he m2 (by omega)
    generalize hq : (σ (m2 + 1)).wpc k = q at g5
    cases g5 with
    | busy h => rw [el] at h; exact absurd h (by decide)
    | full h => rw [el] at h; exact absurd h (by decide)
    | empty =>
      obtain ⟨m3, g6, g7, g8⟩ := moves hs e fw (n := m2 + 1) (j := k) (by rw [hq]; simp [Inside])
      rw [g7, hq] at g8
      have el := he m3 (by omega)
      have rk := (h1 k (m3 + 1) (by omega)).1
      generalize (σ (m3 + 1)).wpc k = q' at g8 rk
      cases g8 with
      | casOk => cases rk
      | casFail h => exact h el

end Verif.DecFair
