import Verif.DecFair.Lemmas
/-!
# An execution in which a `Write` never returns, and one with finitely many calls

In the first, size 1, call 0 looks at the slot three times while another call holds it, and never when it is
empty. The other calls, 1, 2, 3, ..., are accepted one by one, each followed by a `Next`.
-/
namespace Verif.DecFair
open Verif.Decouple

/-- Everybody writes one byte. -/
def one : Nat → List Nat := fun _ => [0]

/-- What the scheduler does next. -/
def nxt (s : St Nat) : St Nat :=
  let b := s.log.length + 1
  match s.rpc with
  | .spin i => { s with rpc := .view i }
  | .view i => { s with log := s.log ++ [s.buf i], rpc := .clear i }
  | .clear i => { s with lock := fun x => if x = i then emptyL else s.lock x, rpc := .decr }
  | .decr => { s with len := (s.len + (W - 1)) % W, rd := (s.rd + 1) % W, rpc := .idle }
  | .idle =>
    if s.len = 0 then
      match s.wpc b with
      | .new => s.at b .add
      | .add => { s with wr := (s.wr + 1) % W, attempts := s.attempts + 1 }.at b (.load ((s.wr + 1) % W))
      | .load ts => s.at b (.cas ts)
      | .cas ts => { s with lock := fun i => if i = slot 1 ts then busyL else s.lock i }.at b (.copy ts)
      | .copy ts =>
        if s.wpc 0 = .add then
          if s.wr % 4 = 3 then { s with buf := fun i => if i = slot 1 ts then one b else s.buf i }.at b (.store ts)
          else { s with wr := (s.wr + 1) % W, attempts := s.attempts + 1 }.at 0 (.load ((s.wr + 1) % W))
        else s.at 0 .add
      | .store ts => { s with lock := fun i => if i = slot 1 ts then ts else s.lock i }.at b .incr
      | .incr => { s with len := (s.len + 1) % W }.at b .accepted
      | _ => s
    else { s with rpc := .spin (slot 1 s.rd) }

/-- The calls other than 0 and the current one. -/
structure Com (s : St Nat) : Prop where
  later : ∀ j, s.log.length + 1 < j → s.wpc j = .new
  earlier : ∀ j, 1 ≤ j → j ≤ s.log.length → s.wpc j = .accepted
  wr : s.wr < W

/-- Where the execution is: the number of steps left in the round. -/
inductive Ph (s : St Nat) : Nat → Prop where
  | new : s.rpc = .idle → s.len = 0 → s.wpc (s.log.length + 1) = .new → s.wpc 0 = .add → s.lock 0 = emptyL → s.wr % 4 = 3 → Ph s 18
  | add : s.rpc = .idle → s.len = 0 → s.wpc (s.log.length + 1) = .add → s.wpc 0 = .add → s.lock 0 = emptyL → s.wr % 4 = 3 → Ph s 17
  | load (ts) : s.rpc = .idle → s.len = 0 → s.wpc (s.log.length + 1) = .load ts → s.wpc 0 = .add → s.lock 0 = emptyL →
      s.wr % 4 = 0 → ts % 4 = 0 → ts < W → Ph s 16
  | cas (ts) : s.rpc = .idle → s.len = 0 → s.wpc (s.log.length + 1) = .cas ts → s.wpc 0 = .add → s.lock 0 = emptyL →
      s.wr % 4 = 0 → ts % 4 = 0 → ts < W → Ph s 15
  | copyA (ts k) : s.rpc = .idle → s.len = 0 → s.wpc (s.log.length + 1) = .copy ts → s.wpc 0 = .add → s.lock 0 = busyL →
      ts % 4 = 0 → ts < W → k = 8 + 2 * (3 - s.wr % 4) → Ph s k
  | copyL (ts t k) : s.rpc = .idle → s.len = 0 → s.wpc (s.log.length + 1) = .copy ts → s.wpc 0 = .load t → s.lock 0 = busyL →
      ts % 4 = 0 → ts < W → s.wr % 4 ≠ 0 → k = 9 + 2 * (3 - s.wr % 4) → Ph s k
  | store (ts) : s.rpc = .idle → s.len = 0 → s.wpc (s.log.length + 1) = .store ts → s.wpc 0 = .add → s.lock 0 = busyL →
      s.wr % 4 = 3 → ts % 4 = 0 → ts < W → Ph s 7
  | incr : s.rpc = .idle → s.len = 0 → s.wpc (s.log.length + 1) = .incr → s.wpc 0 = .add → full (s.lock 0) = true → s.wr % 4 = 3 → Ph s 6
  | next : s.rpc = .idle → s.len = 1 → s.wpc (s.log.length + 1) = .accepted → s.wpc 0 = .add → full (s.lock 0) = true →
      s.wr % 4 = 3 → Ph s 5
  | spin : s.rpc = .spin 0 → s.len = 1 → s.wpc (s.log.length + 1) = .accepted → s.wpc 0 = .add → full (s.lock 0) = true →
      s.wr % 4 = 3 → Ph s 4
  | view : s.rpc = .view 0 → s.len = 1 → s.wpc (s.log.length + 1) = .accepted → s.wpc 0 = .add → s.wr % 4 = 3 → Ph s 3
  | clear : s.rpc = .clear 0 → s.len = 1 → s.wpc (s.log.length + 1) = .new → s.wpc 0 = .add → s.wr % 4 = 3 → Ph s 2
  | decr : s.rpc = .decr → s.len = 1 → s.wpc (s.log.length + 1) = .new → s.wpc 0 = .add → s.lock 0 = emptyL → s.wr % 4 = 3 → Ph s 1

theorem slot1 (x : Nat) : slot 1 x = 0 := by unfold slot; omega

theorem Com.at {s : St Nat} (c : Com s) {k : Nat} {p : WPc} (hk : k = 0 ∨ k = s.log.length + 1) : Com (s.at k p) := by
  refine ⟨fun j hj => ?_, fun j h1 h2 => ?_, c.wr⟩ <;> rw [at_wpc, if_neg (by simp only [St.at] at *; omega)]
  · exact c.later j hj
  · exact c.earlier j h1 h2

theorem Com.at' {s a : St Nat} (c : Com s) {k : Nat} {p : WPc} (h1 : a.wpc = s.wpc) (h2 : a.log = s.log) (h3 : a.wr = s.wr)
    (hk : k = s.log.length + 1) : Com (a.at k p) :=
  Com.at ⟨by rw [h1, h2]; exact c.later, by rw [h1, h2]; exact c.earlier, by rw [h3]; exact c.wr⟩ (.inr (by rw [h2]; exact hk))

theorem step_ph {s : St Nat} {k : Nat} (c : Com s) (p : Ph s k) :
    Step 1 one s (nxt s) ∧ Com (nxt s) ∧ ∃ k', Ph (nxt s) k' ∧ (k = k' + 1 ∨ k = 1 ∧ k' = 18) := by
  have hwm : ∀ x, x % W % 4 = x % 4 := fun x => by unfold W; omega
  have hwl : ∀ x, x % W < W := fun x => Nat.mod_lt _ (by decide)
  have wr' : ∀ {a}, Com s → Com { s with wr := (s.wr + 1) % W, attempts := a } := fun c => ⟨c.later, c.earlier, hwl _⟩
  have b0 : (0 : Nat) ≠ s.log.length + 1 := by omega
  cases p with
  | new h1 h2 h3 h4 h5 h6 =>
    have e : nxt s = s.at (s.log.length + 1) .add := by unfold nxt; simp only [h1, h2, h3, if_true]
    rw [e]
    exact ⟨.call s _ h3 (by simp [one]), c.at (.inr rfl), 17,
      .add h1 h2 (by simp [St.at]) (by simp [St.at, h4]) h5 h6, .inl rfl⟩
  | add h1 h2 h3 h4 h5 h6 =>
    have e : nxt s = { s with wr := (s.wr + 1) % W, attempts := s.attempts + 1 }.at (s.log.length + 1) (.load ((s.wr + 1) % W)) := by
      unfold nxt; simp only [h1, h2, h3, if_true]
    rw [e]
    refine ⟨.add s _ h3 (by decide), (wr' c).at (.inr rfl), 16,
      .load ((s.wr + 1) % W) h1 h2 (by simp [St.at]) (by simp [St.at, h4]) h5 ?_ ?_ (hwl _), .inl rfl⟩
    · simp only [St.at, hwm]; omega
    · rw [hwm]; omega
  | load ts h1 h2 h3 h4 h5 h6 h7 h8 =>
    have e : nxt s = s.at (s.log.length + 1) (.cas ts) := by unfold nxt; simp only [h1, h2, h3, if_true]
    rw [e]
    exact ⟨.loadEmpty s _ ts h3 (by rw [slot1, h5]), c.at (.inr rfl), 15,
      .cas ts h1 h2 (by simp [St.at]) (by simp [St.at, h4]) h5 h6 h7 h8, .inl rfl⟩
  | cas ts h1 h2 h3 h4 h5 h6 h7 h8 =>
    have e : nxt s = { s with lock := fun i => if i = slot 1 ts then busyL else s.lock i }.at (s.log.length + 1) (.copy ts) := by
      unfold nxt; simp only [h1, h2, h3, if_true]
    rw [e]
    exact ⟨.casOk s _ ts h3 (by rw [slot1, h5]), c.at' rfl rfl rfl rfl, 14,
      .copyA ts _ h1 h2 (by simp [St.at]) (by simp [St.at, h4]) (by simp [St.at, slot1]) h7 h8 (by simp [St.at, h6]), .inl rfl⟩
  | copyA ts k h1 h2 h3 h4 h5 h6 h7 h8 =>
    by_cases h9 : s.wr % 4 = 3
    · have e : nxt s = { s with buf := fun i => if i = slot 1 ts then one (s.log.length + 1) else s.buf i }.at (s.log.length + 1) (.store ts) := by
        unfold nxt; simp only [h1, h2, h3, h4, h9, if_true]
      rw [e]
      exact ⟨.copy s _ ts h3, c.at' rfl rfl rfl rfl, 7,
        .store ts h1 h2 (by simp [St.at]) (by simp [St.at, h4]) h5 h9 h6 h7, .inl (by omega)⟩
    · have e : nxt s = { s with wr := (s.wr + 1) % W, attempts := s.attempts + 1 }.at 0 (.load ((s.wr + 1) % W)) := by
        unfold nxt; simp only [h1, h2, h3, h4, h9, if_true, if_false]
      rw [e]
      refine ⟨.add s _ h4 (by decide), (wr' c).at (.inl rfl), k - 1,
        .copyL ts ((s.wr + 1) % W) _ h1 h2 (by simp [St.at, h3]) (by simp [St.at]) h5 h6 h7 ?_ ?_, .inl (by omega)⟩
      · simp only [St.at, hwm]; omega
      · simp only [St.at, hwm]; omega
  | copyL ts t k h1 h2 h3 h4 h5 h6 h7 h8 h9 =>
    have e : nxt s = s.at 0 .add := by unfold nxt; simp [h1, h2, h3, h4]
    rw [e]
    exact ⟨.loadBusy s _ t h4 (by rw [slot1, h5]), c.at (.inl rfl), k - 1,
      .copyA ts _ h1 h2 (by simp [St.at, h3]) (by simp [St.at]) h5 h6 h7 (by simp only [St.at]; omega), .inl (by omega)⟩
  | store ts h1 h2 h3 h4 h5 h6 h7 h8 =>
    have e : nxt s = { s with lock := fun i => if i = slot 1 ts then ts else s.lock i }.at (s.log.length + 1) .incr := by
      unfold nxt; simp only [h1, h2, h3, if_true]
    rw [e]
    refine ⟨.store s _ ts h3, c.at' rfl rfl rfl rfl, 6,
      .incr h1 h2 (by simp [St.at]) (by simp [St.at, h4]) ?_ h6, .inl rfl⟩
    simp only [St.at, slot1, if_true, full_iff]
    unfold emptyL busyL W; omega
  | incr h1 h2 h3 h4 h5 h6 =>
    have e : nxt s = { s with len := (s.len + 1) % W }.at (s.log.length + 1) .accepted := by
      unfold nxt; simp only [h1, h2, h3, if_true]
    rw [e]
    exact ⟨.incr s _ h3, c.at' rfl rfl rfl rfl, 5,
      .next h1 (by simp [St.at, h2]) (by simp [St.at]) (by simp [St.at, h4]) h5 h6, .inl rfl⟩
  | next h1 h2 h3 h4 h5 h6 =>
    have e : nxt s = { s with rpc := .spin (slot 1 s.rd) } := by unfold nxt; simp [h1, h2]
    rw [e]
    exact ⟨.next s h1 (by rw [h2]; decide) (by decide), ⟨c.later, c.earlier, c.wr⟩, 4, .spin (by simp [slot1]) h2 h3 h4 h5 h6, .inl rfl⟩
  | spin h1 h2 h3 h4 h5 h6 =>
    have e : nxt s = { s with rpc := .view 0 } := by unfold nxt; simp only [h1]
    rw [e]
    have g := (full_iff _).1 h5
    exact ⟨.spinEnd s 0 h1 g.1 g.2, ⟨c.later, c.earlier, c.wr⟩, 3, .view rfl h2 h3 h4 h6, .inl rfl⟩
  | view h1 h2 h3 h4 h5 =>
    have e : nxt s = { s with log := s.log ++ [s.buf 0], rpc := .clear 0 } := by unfold nxt; simp only [h1]
    rw [e]
    refine ⟨.view s 0 h1, ⟨fun j hj => ?_, fun j g1 g2 => ?_, c.wr⟩, 2, .clear rfl h2 ?_ h4 h5, .inl rfl⟩
    · simp only [List.length_append, List.length_cons, List.length_nil] at hj; exact c.later j (by omega)
    · simp only [List.length_append, List.length_cons, List.length_nil] at g2
      by_cases e : j = s.log.length + 1
      · rw [e]; exact h3
      · exact c.earlier j g1 (by omega)
    · simp only [List.length_append, List.length_cons, List.length_nil]; exact c.later _ (by omega)
  | clear h1 h2 h3 h4 h5 =>
    have e : nxt s = { s with lock := fun x => if x = 0 then emptyL else s.lock x, rpc := .decr } := by unfold nxt; simp only [h1]
    rw [e]
    exact ⟨.clear s 0 h1, ⟨c.later, c.earlier, c.wr⟩, 1, .decr rfl h2 h3 h4 (by simp) h5, .inl rfl⟩
  | decr h1 h2 h3 h4 h5 h6 =>
    have e : nxt s = { s with len := (s.len + (W - 1)) % W, rd := (s.rd + 1) % W, rpc := .idle } := by unfold nxt; simp only [h1]
    rw [e]
    exact ⟨.decr s h1, ⟨c.later, c.earlier, c.wr⟩, 18, .new rfl (by simp only [h2]; decide) h3 h4 h5 h6, .inr ⟨rfl, rfl⟩⟩

def starve : Nat → St Nat
  | 0 => init
  | 1 => init.at 0 .add
  | n + 2 => nxt (starve (n + 1))

theorem starve_ph : ∀ n, Com (starve (n + 1)) ∧ ∃ k, Ph (starve (n + 1)) k
  | 0 => ⟨⟨fun j hj => by
        have : j ≠ 0 := by rintro rfl; cases hj
        simp [starve, St.at, init, this], fun j h1 h2 => by
        have : j ≤ 0 := h2
        omega, by decide⟩, 18, .new rfl rfl (by simp [starve, St.at, init]) rfl rfl (by decide)⟩
  | n + 1 => by
    obtain ⟨c, k, p⟩ := starve_ph n
    obtain ⟨_, c', k', p', _⟩ := step_ph c p
    exact ⟨c', k', p'⟩

theorem starve_exec : Exec 1 one starve := by
  refine ⟨rfl, fun n => .inl ?_⟩
  cases n with
  | zero => exact .call init 0 rfl (by simp [one])
  | succ n =>
    obtain ⟨c, k, p⟩ := starve_ph n
    exact (step_ph c p).1

theorem Ph.range {s : St Nat} {k : Nat} (p : Ph s k) : 1 ≤ k ∧ k ≤ 18 := by
  cases p <;> omega

/-- Every phase comes again. -/
theorem again (t : Nat) (h1 : 1 ≤ t) (h2 : t ≤ 18) (n : Nat) : ∃ m, n ≤ m ∧ Ph (starve (m + 1)) t := by
  have down : ∀ d k n, Ph (starve (n + 1)) k → k = t + d → ∃ m, n ≤ m ∧ Ph (starve (m + 1)) t := by
    intro d
    induction d with
    | zero => intro k n p e; exact ⟨n, Nat.le_refl _, by rw [e] at p; exact p⟩
    | succ d ih =>
      intro k n p e
      obtain ⟨_, _, k', p', h⟩ := step_ph (starve_ph n).1 p
      obtain ⟨m, h3, h4⟩ := ih k' (n + 1) p' (by omega)
      exact ⟨m, by omega, h4⟩
  have top : ∀ k n, Ph (starve (n + 1)) k → ∃ m, n ≤ m ∧ Ph (starve (m + 1)) 18 := by
    intro k
    induction k with
    | zero => intro n p; exact absurd p.range.1 (by decide)
    | succ k ih =>
      intro n p
      obtain ⟨_, _, k', p', h⟩ := step_ph (starve_ph n).1 p
      rcases h with h | ⟨_, h⟩
      · obtain ⟨m, h3, h4⟩ := ih (n + 1) (by rw [show k = k' by omega]; exact p')
        exact ⟨m, by omega, h4⟩
      · exact ⟨n + 1, by omega, by rw [h] at p'; exact p'⟩
  obtain ⟨k, p⟩ := (starve_ph n).2
  obtain ⟨m, h3, h4⟩ := top k n p
  obtain ⟨m', h5, h6⟩ := down (18 - t) 18 m h4 (by omega)
  exact ⟨m', by omega, h6⟩

/-- Call 0 spins. -/
theorem Ph.spins {s : St Nat} {k : Nat} (p : Ph s k) : s.wpc 0 = .add ∨ ∃ t, s.wpc 0 = .load t := by
  cases p <;> first | exact .inl ‹_› | exact .inr ⟨_, ‹_›⟩

theorem inside_cur {s : St Nat} {j : Nat} (c : Com s) (h : Inside (s.wpc j)) (hj : j ≠ 0) : j = s.log.length + 1 := by
  by_contra hne
  by_cases hl : j ≤ s.log.length
  · exact h.2.1 (c.earlier j (by omega) hl)
  · exact h.1 (c.later j (by omega))

theorem starve_fairW : FairWriters 1 one starve := by
  intro j n hn
  by_cases hj : j = 0
  · subst hj
    obtain ⟨m, h1, h2⟩ := again 14 (by decide) (by decide) n
    refine ⟨m + 1, by omega, ?_⟩
    obtain ⟨c, -⟩ := starve_ph m
    show (nxt (starve (m + 1))).wpc 0 ≠ _
    generalize starve (m + 1) = s at *
    cases h2 with
    | copyA ts _ g1 g2 g3 g4 g5 g6 g7 g8 =>
      have e : nxt s = { s with wr := (s.wr + 1) % W, attempts := s.attempts + 1 }.at 0 (.load ((s.wr + 1) % W)) := by
        unfold nxt; simp [g1, g2, g3, g4, show ¬ s.wr % 4 = 3 by omega]
      rw [e, at_wpc, if_pos rfl, g4]; simp
    | copyL ts t _ g1 g2 g3 g4 g5 g6 g7 g8 g9 => omega
  · obtain ⟨m, h1, h2⟩ := again 8 (by decide) (by decide) n
    refine ⟨m + 1, by omega, ?_⟩
    obtain ⟨c, -⟩ := starve_ph m
    obtain ⟨hi, -⟩ := hn (m + 1) (by omega)
    show (nxt (starve (m + 1))).wpc j ≠ _
    generalize starve (m + 1) = s at *
    have ej := inside_cur c hi hj
    cases h2 with
    | copyA ts _ g1 g2 g3 g4 g5 g6 g7 g8 =>
      have e : nxt s = { s with buf := fun i => if i = slot 1 ts then one (s.log.length + 1) else s.buf i }.at (s.log.length + 1) (.store ts) := by
        unfold nxt; simp only [g1, g2, g3, g4, show s.wr % 4 = 3 by omega, if_true]
      rw [e, at_wpc, if_pos ej, ej, g3]; simp
    | copyL ts t _ g1 g2 g3 g4 g5 g6 g7 g8 g9 => omega

theorem starve_fairR : FairReader 1 one starve := by
  intro n hn
  obtain ⟨m, h1, h2⟩ := again 18 (by decide) (by decide) n
  obtain ⟨hi, -⟩ := hn (m + 1) (by omega)
  cases h2 with
  | new g1 => exact absurd g1 hi
  | copyA => omega
  | copyL => omega

theorem starve_noMarks : NoMarks starve := by
  intro n j ts h
  cases n with
  | zero => cases h
  | succ n =>
    obtain ⟨c, k, p⟩ := starve_ph n
    by_cases hj : j = 0
    · subst hj
      rcases p.spins with g | ⟨t, g⟩ <;> rw [g] at h <;> cases h
    · have ej := inside_cur c (by rw [h]; simp [Inside]) hj
      rw [ej] at h
      generalize starve (n + 1) = s at *
      cases p with
      | store ts' g1 g2 g3 g4 g5 g6 g7 g8 =>
        rw [g3] at h
        cases h
        unfold emptyL busyL W; omega
      | new g1 g2 g3 => rw [g3] at h; cases h
      | add g1 g2 g3 => rw [g3] at h; cases h
      | load _ g1 g2 g3 => rw [g3] at h; cases h
      | cas _ g1 g2 g3 => rw [g3] at h; cases h
      | copyA _ _ g1 g2 g3 => rw [g3] at h; cases h
      | copyL _ _ _ g1 g2 g3 => rw [g3] at h; cases h
      | incr g1 g2 g3 => rw [g3] at h; cases h
      | next g1 g2 g3 => rw [g3] at h; cases h
      | spin g1 g2 g3 => rw [g3] at h; cases h
      | view g1 g2 g3 => rw [g3] at h; cases h
      | clear g1 g2 g3 => rw [g3] at h; cases h
      | decr g1 g2 g3 => rw [g3] at h; cases h

theorem starve_inside (n : Nat) : Inside ((starve (n + 1)).wpc 0) := by
  obtain ⟨c, k, p⟩ := starve_ph n
  rcases p.spins with g | ⟨t, g⟩ <;> rw [g] <;> simp [Inside]

end Verif.DecFair
