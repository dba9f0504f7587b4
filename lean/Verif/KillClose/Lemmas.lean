import Verif.KillClose.Spec
import Mathlib.Data.List.Count
import Mathlib.Data.List.Nodup
import Mathlib.Order.Basic
/-!
# The invariant
-/
namespace Verif.KillClose

variable {s s' : St} {w : Who} {j : Nat}

structure Inv (s : St) : Prop where
  nodup : s.list.Nodup
  mem : ∀ j, j ∈ s.list ↔ s.add j = .returned
  held : s.held = true ↔ ∃ r, s.pc = .closing r
  quiet : s.taken = 0 → ∀ j, s.closes j = 0
  sent : s.taken + (if s.pending then 1 else 0) ≤ s.sent
  pos : s.cClosed = true → 1 ≤ s.taken
  closed : s.cClosed = true → s.taken = 1 → s.pc = .waiting
  busy : s.cClosed = false → s.pc ≠ .waiting → s.taken = 1
  idle : s.cClosed = false → s.pc = .waiting → s.taken = 0
  nocrash : s.crashed = true → 2 ≤ s.taken

theorem inv_init : Inv init :=
  ⟨List.nodup_nil, by simp [init], by simp [init], by simp [init], by simp [init], by simp [init], by simp [init], by simp [init],
    by simp [init], by simp [init]⟩

theorem inv_move (i : Inv s) (m : Move w s s') : Inv s' := by
  cases m with
  | call _ j h =>
    refine { i with mem := fun k => ?_ }
    have := i.mem k
    by_cases e : k = j
    · subst e; simp [this, h]
    · simp [e, this]
  | append _ j h1 h2 =>
    have hj : j ∉ s.list := fun g => by rw [i.mem, h1] at g; cases g
    refine { i with nodup := ?_, mem := fun k => ?_ }
    · simp only [List.nodup_append, List.nodup_singleton, List.mem_singleton]
      exact ⟨i.nodup, trivial, fun a ha b hb => by rintro rfl; subst hb; exact hj ha⟩
    · have := i.mem k
      by_cases e : k = j
      · subst e; simp
      · simp [e, this]
  | signal _ =>
    refine { i with sent := ?_ }
    have := i.sent
    simp only [if_true]
    split at this <;> omega
  | take _ h1 h2 =>
    have hs := i.sent
    rw [h2] at hs
    simp only [if_true] at hs
    refine ⟨i.nodup, i.mem, ?_, fun h => (by simp at h), by simpa using hs, fun h => by simp, fun h h' => ?_, fun h _ => ?_,
      fun _ h => (by cases h), fun h => ?_⟩
    · rw [i.held, h1]; simp
    · have := i.pos h
      simp only at h'
      omega
    · have := i.idle h h1
      simp only [this]
    · have := i.nocrash h
      simp only
      omega
  | log _ h =>
    refine ⟨i.nodup, i.mem, ?_, i.quiet, i.sent, i.pos, fun g g' => ?_, fun g _ => i.busy g (by simp [h]), fun _ h => (by cases h), i.nocrash⟩
    · rw [i.held, h]; simp
    · have := i.closed g g'; rw [h] at this; cases this
  | enter _ h1 h2 =>
    refine ⟨i.nodup, i.mem, by simp, i.quiet, i.sent, i.pos, fun g g' => ?_, fun g _ => i.busy g (by simp [h1]), fun _ h => (by cases h), i.nocrash⟩
    have := i.closed g g'; rw [h1] at this; cases this
  | closeOne _ j rest h =>
    have ht : 1 ≤ s.taken := by
      cases hc : s.cClosed with
      | true => exact i.pos hc
      | false => exact Nat.le_of_eq (i.busy hc (by simp [h])).symm
    refine ⟨i.nodup, i.mem, ?_, fun h => ?_, i.sent, i.pos, fun g g' => ?_, fun g _ => i.busy g (by simp [h]), fun _ h => (by cases h), i.nocrash⟩
    · rw [i.held, h]; simp
    · simp only at h; omega
    · have := i.closed g g'; rw [h] at this; cases this
  | leave _ h =>
    refine ⟨i.nodup, i.mem, by simp, i.quiet, i.sent, i.pos, fun g g' => ?_, fun g _ => i.busy g (by simp [h]), fun _ h => (by cases h), i.nocrash⟩
    have := i.closed g g'; rw [h] at this; cases this
  | closeC _ h1 h2 =>
    have ht := i.busy h2 (by simp [h1])
    refine ⟨i.nodup, i.mem, ?_, i.quiet, i.sent, fun _ => ?_, fun _ _ => rfl, fun h => (by cases h), fun h => (by cases h), i.nocrash⟩
    · rw [i.held, h1]; simp
    · simp only; omega
  | crash _ h1 h2 =>
    refine { i with nocrash := fun _ => ?_ }
    have := i.pos h2
    have h3 : s.taken ≠ 1 := fun h => by have := i.closed h2 h; rw [h1] at this; cases this
    simp only
    omega

theorem later_inv (i : Inv s) (l : Later s s') : Inv s' := by
  induction l with
  | refl => exact i
  | tail _ h ih => obtain ⟨w, _, m⟩ := h; exact inv_move ih m

theorem reach_inv (r : Reach s) : Inv s := later_inv inv_init r

/-- In the first round, a closer that was registered when it began is either closed once or still to be closed. -/
structure First (s : St) (j : Nat) : Prop where
  reg : j ∈ s.list
  log : s.taken = 1 → s.pc = .logging ∨ s.pc = .enter → s.closes j = 0
  mid : s.taken = 1 → ∀ r, s.pc = .closing r → s.closes j + r.count j = 1
  done : s.taken = 1 → s.pc = .done ∨ s.pc = .waiting → s.closes j = 1
  more : 2 ≤ s.taken → 1 ≤ s.closes j

theorem first_move (i : Inv s) (f : First s j) (m : Move w s s') : First s' j := by
  cases m with
  | call _ k h => exact { f with }
  | append _ k h1 h2 => exact { f with reg := List.mem_append_left _ f.reg }
  | signal _ => exact { f with }
  | take _ h1 h2 =>
    refine ⟨f.reg, fun h _ => ?_, fun _ r h => (by cases h), fun _ h => (by rcases h with h | h <;> cases h), fun h => ?_⟩
    · exact i.quiet (by simp only at h; omega) j
    · simp only at h
      by_cases e : s.taken = 1
      · exact Nat.le_of_eq (f.done e (.inr h1)).symm
      · exact f.more (by omega)
  | log _ h =>
    exact ⟨f.reg, fun g _ => f.log g (.inl h), fun _ r h => (by cases h), fun _ h => (by rcases h with h | h <;> cases h), f.more⟩
  | enter _ h1 h2 =>
    refine ⟨f.reg, fun _ h => (by rcases h with h | h <;> cases h), fun g r h => ?_, fun _ h => (by rcases h with h | h <;> cases h), f.more⟩
    cases h
    have := f.log g (.inr h1)
    simp only
    rw [this, List.count_eq_one_of_mem i.nodup f.reg]
  | closeOne _ k rest h =>
    refine ⟨f.reg, fun _ h => (by rcases h with h | h <;> cases h), fun g r h' => ?_, fun _ h => (by rcases h with h | h <;> cases h), fun g => ?_⟩
    · cases h'
      have := f.mid g _ h
      rw [List.count_cons] at this
      by_cases e : j = k
      · subst e; simp at this ⊢; omega
      · simp [e, Ne.symm e] at this ⊢; omega
    · have := f.more g
      simp only
      split <;> omega
  | leave _ h =>
    refine ⟨f.reg, fun _ h => (by rcases h with h | h <;> cases h), fun _ r h => (by cases h), fun g _ => ?_, f.more⟩
    have := f.mid g _ h
    simpa using this
  | closeC _ h1 h2 =>
    exact ⟨f.reg, fun _ h => (by rcases h with h | h <;> cases h), fun _ r h => (by cases h), fun g _ => f.done g (.inl h1), f.more⟩
  | crash _ h1 h2 => exact { f with }

theorem later_first (i : Inv s) (f : First s j) (l : Later s s') : Inv s' ∧ First s' j := by
  induction l with
  | refl => exact ⟨i, f⟩
  | tail _ h ih => obtain ⟨w, _, m⟩ := h; exact ⟨inv_move ih.1 m, first_move ih.1 ih.2 m⟩

/-! ## Progress -/

variable {σ : Nat → St}

theorem Exec.reach (e : Exec σ) : ∀ n, Reach (σ n)
  | 0 => by rw [e.start]; exact .refl
  | n + 1 => by
    rcases e.next n with h | h
    · exact (e.reach n).tail h
    · rw [h]; exact e.reach n

/-- Others leave the goroutine where it is. -/
theorem other_pc (m : Move .other s s') : s'.pc = s.pc ∧ s'.cClosed = s.cClosed ∧ s'.crashed = s.crashed ∧ s'.taken = s.taken ∧
    (s.pending = true → s'.pending = true) := by
  generalize hw : Who.other = w at m
  cases m <;> first | exact ⟨rfl, rfl, rfl, rfl, fun h => h⟩ | exact ⟨rfl, rfl, rfl, rfl, fun _ => rfl⟩ | cases hw

/-- What the goroutine needs to go on. -/
theorem can_go (i : Inv s) (h : s.crashed = false) (hp : s.pc = .waiting → s.pending = true) : ∃ s', Step .handler s s' := by
  cases hs : s.pc with
  | waiting => exact ⟨_, h, .take _ hs (hp hs)⟩
  | logging => exact ⟨_, h, .log _ hs⟩
  | enter =>
    refine ⟨_, h, .enter _ hs ?_⟩
    cases hh : s.held with
    | false => rfl
    | true => obtain ⟨r, g⟩ := i.held.1 hh; rw [hs] at g; cases g
  | closing r =>
    cases r with
    | nil => exact ⟨_, h, .leave _ hs⟩
    | cons j r => exact ⟨_, h, .closeOne _ j r hs⟩
  | done =>
    cases hc : s.cClosed with
    | false => exact ⟨_, h, .closeC _ hs hc⟩
    | true => exact ⟨_, h, .crash _ hs hc⟩

/-- The goroutine moves, as long as it can. -/
theorem goes_on (e : Exec σ) (f : Fair σ) {n : Nat} (hc : ∀ m, n ≤ m → (σ m).crashed = false)
    (hp : (σ n).pc = .waiting → (σ n).pending = true) :
    ∃ m, n ≤ m ∧ (σ m).pc = (σ n).pc ∧ (σ m).cClosed = (σ n).cClosed ∧ Step .handler (σ m) (σ (m + 1)) := by
  by_contra hno
  have stay : ∀ m, n ≤ m → (σ m).pc = (σ n).pc ∧ (σ m).cClosed = (σ n).cClosed ∧ ((σ n).pending = true → (σ m).pending = true) := by
    intro m hm
    induction hm with
    | refl => exact ⟨rfl, rfl, fun h => h⟩
    | @step m hm ih =>
      rcases e.next m with ⟨w, h⟩ | h
      · cases w with
        | handler => exact absurd ⟨m, hm, ih.1, ih.2.1, h⟩ hno
        | other =>
          obtain ⟨h1, h2, _, _, h3⟩ := other_pc h.2
          exact ⟨h1.trans ih.1, h2.trans ih.2.1, fun g => h3 (ih.2.2 g)⟩
      · rw [h]; exact ih
  obtain ⟨m, hm, h⟩ := f n fun m hm => can_go (reach_inv (e.reach m)) (hc m hm) fun g => (stay m hm).2.2 (hp ((stay m hm).1.symm.trans g))
  exact hno ⟨m, hm, (stay m hm).1, (stay m hm).2.1, h⟩

/-- The goroutine of `HandleKillSig` takes its steps one after the other. -/
theorem handler_pc (m : Move .handler s s') : match s.pc with
    | .waiting => s'.pc = .logging
    | .logging => s'.pc = .enter
    | .enter => ∃ r, s'.pc = .closing r
    | .closing [] => s'.pc = .done
    | .closing (_ :: r) => s'.pc = .closing r
    | .done => s.cClosed = false → s'.cClosed = true := by
  generalize hw : Who.handler = w at m
  cases m with
  | call _ j h => cases hw
  | append _ j h1 h2 => cases hw
  | signal _ => cases hw
  | take _ h1 h2 => rw [h1]
  | log _ h => rw [h]
  | enter _ h1 h2 => rw [h1]; exact ⟨_, rfl⟩
  | closeOne _ j rest h => rw [h]
  | leave _ h => rw [h]
  | closeC _ h1 h2 => rw [h1]; exact fun _ => rfl
  | crash _ h1 h2 => rw [h1]; exact fun h => absurd h2 (by simp [h])

/-- As long as the program does not crash, the goroutine comes to the end of its round. -/
theorem to_done (e : Exec σ) (f : Fair σ) {n : Nat} (hc : ∀ m, n ≤ m → (σ m).crashed = false)
    (hp : (σ n).pc ≠ .waiting ∨ (σ n).pending = true) : ∃ k, n ≤ k ∧ (σ k).pc = .done ∧ Move .handler (σ k) (σ (k + 1)) := by
  have next : ∀ m, n ≤ m → ((σ m).pc = .waiting → (σ m).pending = true) →
      ∃ k, n ≤ k ∧ (σ k).pc = (σ m).pc ∧ Move .handler (σ k) (σ (k + 1)) := fun m hm h => by
    obtain ⟨k, h1, h2, _, h3⟩ := goes_on e f (fun a ha => hc a (by omega)) h
    exact ⟨k, by omega, h2, h3.2⟩
  by_contra hno
  have d4 : ∀ m, n ≤ m → (σ m).pc ≠ .done := fun m hm h => by
    obtain ⟨k, h1, h2, h3⟩ := next m hm (by simp [h])
    exact hno ⟨k, h1, h2.trans h, h3⟩
  have d3 : ∀ r m, n ≤ m → (σ m).pc ≠ .closing r := by
    intro r
    induction r with
    | nil =>
      intro m hm h
      obtain ⟨k, h1, h2, h3⟩ := next m hm (by simp [h])
      have := handler_pc h3
      rw [h2, h] at this
      exact d4 (k + 1) (by omega) this
    | cons j r ih =>
      intro m hm h
      obtain ⟨k, h1, h2, h3⟩ := next m hm (by simp [h])
      have := handler_pc h3
      rw [h2, h] at this
      exact ih (k + 1) (by omega) this
  have d2 : ∀ m, n ≤ m → (σ m).pc ≠ .enter := fun m hm h => by
    obtain ⟨k, h1, h2, h3⟩ := next m hm (by simp [h])
    have := handler_pc h3
    rw [h2, h] at this
    obtain ⟨r, this⟩ := this
    exact d3 r (k + 1) (by omega) this
  have d1 : ∀ m, n ≤ m → (σ m).pc ≠ .logging := fun m hm h => by
    obtain ⟨k, h1, h2, h3⟩ := next m hm (by simp [h])
    have := handler_pc h3
    rw [h2, h] at this
    exact d2 (k + 1) (by omega) this
  cases h : (σ n).pc with
  | waiting =>
    obtain ⟨k, h1, h2, h3⟩ := next n (Nat.le_refl _) (fun g => hp.resolve_left (by simp [g]))
    have := handler_pc h3
    rw [h2, h] at this
    exact d1 (k + 1) (by omega) this
  | logging => exact d1 n (Nat.le_refl _) h
  | enter => exact d2 n (Nat.le_refl _) h
  | closing r => exact d3 r n (Nat.le_refl _) h
  | done => exact d4 n (Nat.le_refl _) h

/-- A crash comes after the channel was closed. -/
theorem crash_closed (i : Inv s) (h : s.crashed = true) : s.cClosed = true := by
  have h2 := i.nocrash h
  cases hc : s.cClosed with
  | true => rfl
  | false =>
    by_cases hw : s.pc = .waiting
    · have := i.idle hc hw; omega
    · have := i.busy hc hw; omega

theorem closed_stays (m : Move w s s') (h : s.cClosed = true) : s'.cClosed = true := by
  cases m <;> first | exact h | rfl

/-- In the first round nothing is closed more than once. -/
structure Once (s : St) (j : Nat) : Prop where
  log : s.taken ≤ 1 → s.cClosed = false → s.pc = .waiting ∨ s.pc = .logging ∨ s.pc = .enter → s.closes j = 0
  mid : s.taken ≤ 1 → ∀ r, s.pc = .closing r → s.closes j + r.count j ≤ 1
  all : s.taken ≤ 1 → s.closes j ≤ 1

theorem once_move (i : Inv s) (o : Once s j) (m : Move w s s') : Once s' j := by
  cases m with
  | call _ k h => exact { o with }
  | append _ k h1 h2 => exact { o with }
  | signal _ => exact { o with }
  | take _ h1 h2 =>
    refine ⟨fun h g _ => ?_, fun _ r h => (by cases h), fun h => ?_⟩ <;> simp only at h
    · exact i.quiet (by omega) j
    · have := i.quiet (by omega) j; simp only; omega
  | log _ h => exact ⟨fun g g' _ => o.log g g' (.inr (.inl h)), fun _ r h => (by cases h), o.all⟩
  | enter _ h1 h2 =>
    refine ⟨fun _ _ h => (by rcases h with h | h | h <;> cases h), fun g r h => ?_, o.all⟩
    cases h
    have hc : s.cClosed = false := by
      cases hc : s.cClosed with
      | false => rfl
      | true =>
        have := i.pos hc
        have := i.closed hc (by simp only at g; omega)
        rw [h1] at this; cases this
    have := o.log g hc (.inr (.inr h1))
    simp only
    rw [this, Nat.zero_add]
    exact List.nodup_iff_count_le_one.1 i.nodup j
  | closeOne _ k rest h =>
    have key : s.taken ≤ 1 → (if j = k then s.closes j + 1 else s.closes j) + rest.count j ≤ 1 := fun g => by
      have := o.mid g _ h
      rw [List.count_cons] at this
      by_cases e : j = k
      · subst e; simp at this ⊢; omega
      · simp [e, Ne.symm e] at this ⊢; omega
    refine ⟨fun _ _ h => (by rcases h with h | h | h <;> cases h), fun g r h' => ?_, fun g => ?_⟩
    · cases h'; exact key g
    · have := key g; simp only; omega
  | leave _ h => exact ⟨fun _ _ h => (by rcases h with h | h | h <;> cases h), fun _ r h => (by cases h), o.all⟩
  | closeC _ h1 h2 => exact ⟨fun _ h => (by cases h), fun _ r h => (by cases h), o.all⟩
  | crash _ h1 h2 => exact { o with }

theorem reach_once (r : Reach s) (j : Nat) : Once s j := by
  have key : ∀ s, Later init s → Inv s ∧ Once s j := fun s l => by
    induction l with
    | refl => exact ⟨inv_init, by simp [init], by simp [init], by simp [init]⟩
    | tail _ h ih => obtain ⟨w, _, m⟩ := h; exact ⟨inv_move ih.1 m, once_move ih.1 ih.2 m⟩
  exact (key s r).2

end Verif.KillClose
