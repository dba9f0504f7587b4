import Verif.Conc.RW
/-!
# Objects behind a `sync.RWMutex`: nobody waits for ever
-/
set_option linter.unusedSectionVars false
namespace Verif.Conc.RW
open Verif.Conc Relation

variable {σ A C R : Type} (g : Guarded σ A C R)

/-- A method under way has a step to make. -/
def Live : Prop := ∀ s c acc, ReflTransGen (g.iter s c) g.start acc → (∃ acc', g.iter s c acc acc') ∨ ∃ r s', g.fin s c acc r s'

/-- `μ` bounds the rounds a method has left. -/
def Shrinks (μ : σ → C → A → Nat) : Prop := ∀ s c acc acc', g.iter s c acc acc' → μ s c acc' < μ s c acc

/-- A step that does not invoke a method. -/
def Quiet (s s' : St σ A C R) : Prop := Step g s s' ∧ s'.next = s.next

variable {g}

/-- Goroutines from `N` on are outside. -/
def Below (N : Nat) (s : St σ A C R) : Prop := ∀ t, N ≤ t → s.pc t = .idle

theorem reach_below {s : St σ A C R} (h : Reach g s) : ∃ N, Below N s := by
  induction h with
  | init => exact ⟨0, fun _ _ => rfl⟩
  | @step s s' _ st ih =>
    obtain ⟨N, hN⟩ := ih
    have key : ∀ t p, s'.pc = setPc s.pc t p → ∃ N, Below N s' := by
      intro t p e
      refine ⟨max N (t + 1), fun t' ht' => ?_⟩
      rw [e, setPc_ne _ _ (by omega)]
      exact hN t' (by omega)
    cases st <;> exact key _ _ rfl

/-- The stages a goroutine still has before it. -/
def stage : Pc A C R → Nat
  | .idle => 0
  | .out .. => 1
  | .held .. => 2
  | .body .. => 3
  | .want .. => 4

/-- The rounds a call has left at most. -/
def left (μ : σ → C → A → Nat) (m : σ) : Pc A C R → Nat
  | .body _ c acc => μ m c acc
  | _ => 0

/-- Sum over the first goroutines. -/
def total (f : Pc A C R → Nat) (pc : Nat → Pc A C R) : Nat → Nat
  | 0 => 0
  | n + 1 => total f pc n + f (pc n)

theorem total_setPc (f : Pc A C R → Nat) (pc : Nat → Pc A C R) (t : Nat) (p : Pc A C R) : ∀ N,
    total f (setPc pc t p) N + (if t < N then f (pc t) else 0) = total f pc N + (if t < N then f p else 0)
  | 0 => by simp [total]
  | N + 1 => by
    have ih := total_setPc f pc t p N
    simp only [total]
    by_cases h : t < N
    · rw [if_pos h, if_pos h] at ih
      rw [if_pos (by omega), if_pos (by omega), setPc_ne _ _ (by omega)]
      omega
    · rw [if_neg h, if_neg h] at ih
      by_cases h' : t = N
      · subst h'
        rw [if_pos (by omega), if_pos (by omega), setPc_same]
        omega
      · rw [if_neg (by omega), if_neg (by omega), setPc_ne _ _ (fun e => h' e.symm)]
        omega

/-- Stages left, then entries left. -/
def measure (μ : σ → C → A → Nat) (N : Nat) (s : St σ A C R) : Nat × Nat := (total stage s.pc N, total (left μ s.m) s.pc N)

theorem quiet_below {N : Nat} {s s' : St σ A C R} (h : Quiet g s s') (b : Below N s) : Below N s' := by
  have key : ∀ t p, s'.pc = setPc s.pc t p → s.pc t ≠ .idle → Below N s' := by
    intro t p e hne t' ht'
    rw [e]
    by_cases h : t' = t
    · subst h; exact absurd (b t' ht') hne
    · rw [setPc_ne _ _ h]; exact b t' ht'
  obtain ⟨st, hn⟩ := h
  cases st with
  | invoke h => simp at hn
  | rlock h _ _ => exact key _ _ rfl (by rw [h]; simp)
  | lock h _ _ _ => exact key _ _ rfl (by rw [h]; simp)
  | iter h _ => exact key _ _ rfl (by rw [h]; simp)
  | access h _ => exact key _ _ rfl (by rw [h]; simp)
  | runlock h _ => exact key _ _ rfl (by rw [h]; simp)
  | unlock h _ => exact key _ _ rfl (by rw [h]; simp)
  | ret h => exact key _ _ rfl (by rw [h]; simp)

theorem quiet_measure {μ : σ → C → A → Nat} (hμ : Shrinks g μ) {N : Nat} {s s' : St σ A C R} (h : Quiet g s s') (b : Below N s) :
    Prod.Lex (· < ·) (· < ·) (measure μ N s') (measure μ N s) := by
  have hlt : ∀ t, s.pc t ≠ .idle → t < N := fun t ht => by
    by_contra hc
    exact ht (b t (by omega))
  have key : ∀ t p, s'.pc = setPc s.pc t p → s.pc t ≠ .idle → stage p < stage (s.pc t) →
      Prod.Lex (· < ·) (· < ·) (measure μ N s') (measure μ N s) := by
    intro t p e hne hs
    refine Prod.Lex.left _ _ ?_
    have := total_setPc stage s.pc t p N
    rw [if_pos (hlt t hne), if_pos (hlt t hne)] at this
    rw [e]
    omega
  obtain ⟨st, hn⟩ := h
  cases st with
  | invoke h => simp at hn
  | rlock h _ _ => exact key _ _ rfl (by rw [h]; simp) (by rw [h]; simp [stage])
  | lock h _ _ _ => exact key _ _ rfl (by rw [h]; simp) (by rw [h]; simp [stage])
  | access h _ => exact key _ _ rfl (by rw [h]; simp) (by rw [h]; simp [stage])
  | runlock h _ => exact key _ _ rfl (by rw [h]; simp) (by rw [h]; simp [stage])
  | unlock h _ => exact key _ _ rfl (by rw [h]; simp) (by rw [h]; simp [stage])
  | ret h => exact key _ _ rfl (by rw [h]; simp) (by rw [h]; simp [stage])
  | @iter t id c acc acc' h hit =>
    have ht := hlt t (by rw [h]; simp)
    have h1 := total_setPc stage s.pc t (.body id c (acc')) N
    have h2 := total_setPc (left μ s.m) s.pc t (.body id c (acc')) N
    have h3 := hμ _ _ _ _ hit
    rw [if_pos ht, if_pos ht, h] at h1 h2
    have e1 : total stage (setPc s.pc t (.body id c (acc'))) N = total stage s.pc N := by
      simp only [stage] at h1; omega
    unfold measure
    simp only [e1]
    refine Prod.Lex.right _ ?_
    simp only [left] at h2 ⊢
    omega

theorem quiet_acc {μ : σ → C → A → Nat} (hμ : Shrinks g μ) {N : Nat} (s : St σ A C R) (b : Below N s) : Acc (fun s' s : St σ A C R => Quiet g s s') s := by
  have wf : WellFounded (Prod.Lex (· < · : Nat → Nat → Prop) (· < · : Nat → Nat → Prop)) :=
    (Prod.lex ⟨_, Nat.lt_wfRel.wf⟩ ⟨_, Nat.lt_wfRel.wf⟩).wf
  generalize hm : measure μ N s = w
  induction w using wf.induction generalizing s with
  | _ w ih =>
    subst hm
    exact ⟨_, fun s' hs => ih _ (quiet_measure hμ hs b) s' (quiet_below hs b) rfl⟩

/-- A goroutine inside a call is never stuck for good: if any goroutine is inside a call, some
goroutine can take a step other than invoking a new call. -/
theorem no_deadlock (ro : ReadsOnly g) (lv : Live g) {s : St σ A C R} (h : Reach g s) {t : Nat} (ht : s.pc t ≠ .idle) :
    ∃ s', Step g s s' ∧ s'.next = s.next := by
  obtain ⟨S, i⟩ := h.inv ro
  -- a goroutine in its body or holding the lock can go on
  have hbody : ∀ t id c acc, s.pc t = .body id c acc → ∃ s', Step g s s' ∧ s'.next = s.next := by
    intro t id c acc hp
    have hp' := i.pcs t
    rw [hp] at hp'
    rcases lv _ _ _ hp'.2.2 with ⟨acc', h'⟩ | ⟨r, m', h'⟩
    · exact ⟨_, .iter hp h', rfl⟩
    · exact ⟨_, .access hp h', rfl⟩
  have hheld : ∀ t id c r, s.pc t = .held id c r → ∃ s', Step g s s' ∧ s'.next = s.next := by
    intro t id c r hp
    cases hm : g.writes c with
    | false => exact ⟨_, .runlock hp hm, rfl⟩
    | true => exact ⟨_, .unlock hp hm, rfl⟩
  have hholds : ∀ t m, (s.pc t).holds g = some m → ∃ s', Step g s s' ∧ s'.next = s.next := by
    intro t m hh
    cases hp : s.pc t with
    | body id c acc => exact hbody t id c acc hp
    | held id c r => exact hheld t id c r hp
    | idle => rw [hp] at hh; cases hh
    | want => rw [hp] at hh; cases hh
    | out => rw [hp] at hh; cases hh
  cases hp : s.pc t with
  | idle => exact absurd hp ht
  | body id c acc => exact hbody t id c acc hp
  | held id c r => exact hheld t id c r hp
  | out id c r => exact ⟨_, .ret hp, rfl⟩
  | want id c =>
    cases hw : s.writer with
    | some t' => exact hholds t' _ ((i.writer t').1 hw)
    | none =>
      cases hm : g.writes c with
      | false => exact ⟨_, .rlock hp hm hw, rfl⟩
      | true =>
        cases hr : s.readers with
        | nil => exact ⟨_, .lock hp hm hw hr, rfl⟩
        | cons t' l => exact hholds t' _ ((i.readers t').1 (by rw [hr]; simp))

/-- Without new calls no execution goes on for ever. -/
theorem ends {μ : σ → C → A → Nat} (hμ : Shrinks g μ) {s : St σ A C R} (h : Reach g s) :
    ¬ ∃ f : Nat → St σ A C R, f 0 = s ∧ ∀ n, Step g (f n) (f (n + 1)) ∧ (f (n + 1)).next = (f n).next := by
  rintro ⟨f, rfl, hf⟩
  obtain ⟨N, hN⟩ := reach_below h
  have key : ∀ s, Acc (fun s' s : St σ A C R => Quiet g s s') s → ∀ n, f n = s → False := by
    intro s ha
    induction ha with
    | intro s _ ih =>
      intro n e
      exact ih (f (n + 1)) (e ▸ hf n) (n + 1) rfl
  exact key _ (quiet_acc hμ _ hN) 0 rfl

/-- And it can end in one way only: with all calls returned. From every state such an end is reached. -/
theorem all_return (ro : ReadsOnly g) (lv : Live g) {μ : σ → C → A → Nat} (hμ : Shrinks g μ) {s : St σ A C R} (h : Reach g s) :
    ((¬ ∃ s', Step g s s' ∧ s'.next = s.next) → ∀ t, s.pc t = .idle) ∧
    ∃ s', Relation.ReflTransGen (fun a b : St σ A C R => Step g a b ∧ b.next = a.next) s s' ∧ ∀ t, s'.pc t = .idle := by
  constructor
  · intro hn t
    by_contra ht
    exact hn (no_deadlock ro lv h ht)
  · obtain ⟨N, hN⟩ := reach_below h
    have ha := quiet_acc hμ _ hN
    clear hN
    induction ha with
    | intro s _ ih =>
      by_cases hs : ∀ t, s.pc t = .idle
      · exact ⟨s, .refl, hs⟩
      · obtain ⟨t, ht⟩ := not_forall.1 hs
        obtain ⟨s1, h1, h2⟩ := no_deadlock ro lv h ht
        obtain ⟨s2, h3, h4⟩ := ih s1 ⟨h1, h2⟩ (h.step h1)
        exact ⟨s2, .head ⟨h1, h2⟩ h3, h4⟩

/-- The goroutine is in a method, with access to the object. -/
def Accessing (s : St σ A C R) (t : Nat) (c : C) : Prop := ∃ id acc, s.pc t = .body id c acc

theorem no_race (ro : ReadsOnly g) {s : St σ A C R} (h : Reach g s) {t t' : Nat} {c c' : C}
    (ht : Accessing s t c) (ht' : Accessing s t' c') (hm : g.writes c = true) : t' = t := by
  obtain ⟨S, i⟩ := h.inv ro
  obtain ⟨id, acc, hp⟩ := ht
  obtain ⟨id', acc', hp'⟩ := ht'
  have hwt : s.writer = some t := (i.writer t).2 (by rw [hp, Pc.holds, hm])
  cases hm' : g.writes c' with
  | false =>
    have : t' ∈ s.readers := (i.readers t').2 (by rw [hp', Pc.holds, hm'])
    rw [i.excl (by rw [hwt]; simp)] at this
    simp at this
  | true =>
    have : s.writer = some t' := (i.writer t').2 (by rw [hp', Pc.holds, hm'])
    rw [hwt] at this; cases this; rfl

theorem linearizable (ro : ReadsOnly g) {s : St σ A C R} (h : Reach g s) : Linearizable (seqObj g) s.hist := by
  obtain ⟨S, i⟩ := h.inv ro
  exact ⟨S, _, i.lin⟩

/-- Runs of one object are runs of another that simulates it. -/
theorem sim {σ' : Type} {o : Obj σ C R} {o' : Obj σ' C R} (r : σ → σ' → Prop) (h0 : r o.init o'.init)
    (hs : ∀ s s' c x t, r s t → o.step s c x s' → ∃ t', o'.step t c x t' ∧ r s' t')
    {h : List (Event C R)} (hl : Linearizable o h) : Linearizable o' h := by
  obtain ⟨S, s, l⟩ := hl
  have key : ∀ S s, Legal o S s → ∃ t, Legal o' S t ∧ r s t := by
    intro S s hl
    induction hl with
    | nil => exact ⟨_, .nil, h0⟩
    | snoc _ hst ih =>
      obtain ⟨t, ht, hr⟩ := ih
      obtain ⟨t', h1, h2⟩ := hs _ _ _ _ _ hr hst
      exact ⟨t', .snoc ht h1, h2⟩
  obtain ⟨t, ht, _⟩ := key S s l.legal
  exact ⟨S, t, ht, l.once, l.invoked, l.returned, l.realtime⟩

end Verif.Conc.RW
