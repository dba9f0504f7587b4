import Verif.LazyAll.Ends
/-!
# C160: what goroutines see of lazies they share, also when constructors panic
-/
namespace Verif.LazyAll
open LazyPanic (Prog Act Value ValueFrom NoPanic)

variable {V : Type} {P : Prog V} {prog : Nat → List (Option V) → Option Nat}

/-- A lazy whose constructor panics. -/
def badProg : Prog Nat := ⟨fun _ _ => .panic, 0⟩

/-- Every goroutine gets lazy 0 and stops. -/
def getZero : Nat → List (Option Nat) → Option Nat := fun _ got => if got = [] then some 0 else none

/-- Goroutine 0 gets the lazy, which panics; goroutine 1 gets it afterwards and is given the zero value. -/
theorem bad_reach : ∃ s, Reach badProg getZero s ∧ (0, none) ∈ s.log ∧ (0, some 0) ∈ s.log := by
  have h := Reach.start (P := badProg) (prog := getZero)
  replace h := h.step (t := 0) (.mk (.call (i := 0) rfl))
  replace h := h.step (t := 0) (.mk (.loadUnset rfl))
  replace h := h.step (t := 0) (.mk (.lock rfl))
  replace h := h.step (t := 0) (.mk (.checkUnset rfl))
  replace h := h.step (t := 0) (.mk (.panics rfl))
  replace h := h.step (t := 0) (.mk .setDone)
  replace h := h.step (t := 0) (.mk .unlockPanic)
  replace h := h.step (t := 0) (.mk .fail)
  replace h := h.step (t := 1) (.mk (.call (i := 0) rfl))
  replace h := h.step (t := 1) (.mk (.loadSet rfl))
  replace h := h.step (t := 1) (.mk .read)
  exact ⟨_, h, .head _, .tail _ (.head _)⟩

/-- **C160, refuted.** One `Get` panics, the next one gives the zero value. -/
theorem C160_refuted : ¬ C160_full := by
  intro h
  obtain ⟨s, hs, h1, h2⟩ := bad_reach
  cases h Nat badProg getZero s hs 0 none (some 0) h1 h2

/-- **C160 (partial).** Whatever panics: all `Get` calls of a lazy that return a value return the same one. Missing: that no call panics
while others return. -/
theorem C160_partial {s : St V} (h : Reach P prog s) {i : Nat} {v w : V} (hv : (i, some v) ∈ s.log) (hw : (i, some w) ∈ s.log) : v = w := by
  have hi := inv_reach closed_true h
  rcases (hi.log i _ hv).2.2 with h1 | ⟨h1, _⟩
  · rcases (hi.log i _ hw).2.2 with h2 | ⟨h2, _⟩
    · cases h1; cases h2; rfl
    · cases h2
  · cases h1

/-- **C160, panics.** At most one `Get` of a lazy panics, and then all the others return the zero value. -/
theorem C160_one_panic {s : St V} (h : Reach P prog s) (i : Nat) : s.log.countP (fun p => p.1 == i && p.2.isNone) ≤ 1 ∧
    ((i, none) ∈ s.log → ∀ v, (i, some v) ∈ s.log → v = P.zero) := by
  refine ⟨?_, ?_⟩
  · have := (once_reach h).one 0 i
    unfold panicked at this
    omega
  · intro hn v hv
    have hi := inv_reach closed_true h
    rcases (hi.log i _ hn).2.2 with h1 | ⟨_, h1⟩
    · cases h1
    · rcases (hi.log i _ hv).2.2 with h2 | ⟨h2, _⟩
      · cases h2; exact h1
      · cases h2

example : ∃ s, Reach badProg getZero s ∧ s.log.countP (fun p => p.1 == 0 && p.2.isNone) = 1 := by
  obtain ⟨s, hs, h1, _⟩ := bad_reach
  refine ⟨s, hs, Nat.le_antisymm (C160_one_panic hs 0).1 ?_⟩
  exact List.countP_pos_iff.2 ⟨_, h1, rfl⟩

/-- **C160, once.** A constructor is run at most once, whoever gets its lazy and whatever panics. -/
theorem C160_once {s : St V} (h : Reach P prog s) (i : Nat) : (s.runs i).length ≤ 1 := (inv_reach closed_true h).few i

/-- What the lazies with a value give. -/
theorem closed_value : Closed P prog (fun i r => ∀ v, Value P i v → r = some v) (fun i got => ∀ v, Value P i v → ValueFrom P i got v)
    (fun _ _ => True) := by
  constructor
  · intro t; trivial
  · intro t got i _ _ v hv; cases hv with | mk h => exact h
  · intros; trivial
  · intro k got j g _ _ v hv; cases hv with | mk h => exact h
  · intro k got j g w hb hc hs v hv
    cases hb v hv with
    | ret h => rw [hc] at h; cases h
    | get h h1 h2 => rw [hc] at h; cases h; cases hs _ h1; exact h2
  · intro k got j hb hc hs v hv
    cases hb v hv with
    | ret h => rw [hc] at h; cases h
    | get h h1 h2 => rw [hc] at h; cases h; cases hs _ h1
  · intro k got j hb hc hs
    have : ∀ v, ¬ Value P k v := by
      intro v hv
      cases hb v hv with
      | ret h => rw [hc] at h; cases h
      | get h h1 h2 => rw [hc] at h; cases h; cases hs _ h1
    exact ⟨fun v hv => absurd hv (this v), fun v hv => absurd hv (this v)⟩
  · intro k got v hb hc w hw
    cases hb w hw with
    | ret h => rw [hc] at h; cases h; rfl
    | get h h1 h2 => rw [hc] at h; cases h
  · intro k got hb hc
    have : ∀ v, ¬ Value P k v := by
      intro v hv
      cases hb v hv with
      | ret h => rw [hc] at h; cases h
      | get h h1 h2 => rw [hc] at h; cases h
    exact ⟨fun v hv => absurd hv (this v), fun v hv => absurd hv (this v)⟩

/-- **C160, values.** A lazy that has a value by the definitions of the constructors gives it to every goroutine, whatever the constructors of
other lazies do. -/
theorem C160_value {s : St V} (h : Reach P prog s) {i : Nat} {v : V} (hv : Value P i v) {r : Option V} (hr : (i, r) ∈ s.log) : r = some v :=
  ((inv_reach closed_value h).log i r hr).2.1 v hv

/-- **C160, no panics.** If no constructor panics of itself, every `Get` gives every goroutine the value of the lazy. -/
theorem C160_no_panic (hp : NoPanic P) {s : St V} (h : Reach P prog s) {i : Nat} {r : Option V} (hr : (i, r) ∈ s.log) :
    ∃ v, r = some v ∧ Value P i v := by
  have c : Closed P prog (fun i r => ∃ v, r = some v ∧ Value P i v) (fun i got => ∀ v, ValueFrom P i got v → ValueFrom P i [] v) (fun _ _ => True) := by
    constructor
    · intro t; trivial
    · intro t got i _ _ v hv; exact hv
    · intros; trivial
    · intro k got j g _ _ v hv; exact hv
    · intro k got j g w hb hc hs v hv
      obtain ⟨w', hw, hw'⟩ := hs
      cases hw
      exact hb v (.get hc hw' hv)
    · rintro k got j hb hc ⟨v, hv, _⟩; cases hv
    · rintro k got j hb hc ⟨v, hv, _⟩; cases hv
    · intro k got v hb hc; exact ⟨v, rfl, .mk (hb v (.ret hc))⟩
    · intro k got hb hc; exact absurd hc (hp k got)
  exact ((inv_reach c h).log i r hr).2.1

/-- **C160, no deadlock.** If the constructors and the goroutines need finitely many lazies and none needs itself, then as long as a goroutine
is not finished some goroutine can step. -/
theorem C160_can_step (hm : ∀ t, MainEnds P (prog t) []) {s : St V} (h : Reach P prog s) {t : Nat} (ht : ¬ Finished prog s t) :
    ∃ u s', Step P prog u s s' := by
  apply Classical.byContradiction
  intro hn
  exact ht (not_stuck hm h (fun u s' hs => hn ⟨u, s', hs⟩) t)

/-- **C160, the end.** Finitely many such goroutines make finitely many steps, however they are scheduled. -/
theorem C160_ends {N : Nat} (hN : ∀ t, N ≤ t → prog t [] = none) (hm : ∀ t, MainEnds P (prog t) []) (σ : Nat → St V) (h0 : σ 0 = start P) :
    ¬ ∀ n, ∃ t, Step P prog t (σ n) (σ (n + 1)) := by
  intro hs
  have hr : ∀ n, Reach P prog (σ n) := by
    intro n
    induction n with
    | zero => rw [h0]; exact .start
    | succ n ih => obtain ⟨t, ht⟩ := hs n; exact ih.step ht
  have hacc : Acc (fun g f => ∃ t, t < N ∧ Next P (prog t) (g t) (f t) ∧ ∀ u, u ≠ t → g u = f u) (σ 0).thr := by
    apply Conc.acc_prod (R := fun t => Next P (prog t))
    intro t _
    rw [h0]
    exact acc_main (hm t)
  have key : ∀ f, Acc (fun g f => ∃ t, t < N ∧ Next P (prog t) (g t) (f t) ∧ ∀ u, u ≠ t → g u = f u) f → ∀ n, (σ n).thr = f → False := by
    intro f hf
    induction hf with
    | intro f _ ih =>
      intro n hn
      obtain ⟨t, ht⟩ := hs n
      refine ih (σ (n + 1)).thr ?_ (n + 1) rfl
      have hid := idle hN (hr n) t
      generalize hq : σ (n + 1) = q at ht
      cases ht with
      | @mk e l m =>
        refine ⟨t, ?_, ?_, ?_⟩
        · apply Classical.byContradiction
          intro hlt
          rw [hid (by omega)] at m
          cases m with
          | call h => rw [hN t (by omega)] at h; cases h
        · show Next P (prog t) (upd (σ n).thr t l t) (f t)
          rw [upd_same, ← hn]; exact ⟨_, _, m⟩
        · intro u hu
          show upd (σ n).thr t l u = f u
          rw [upd_ne _ _ hu, hn]
  exact key _ hacc 0 rfl

/-! ## A case: lazy 2 adds lazies 0 and 1, recovering if 1 panics; 1 panics; goroutines 0 and 1 get them -/

def caseProg : Prog Nat := ⟨fun i got => match i, got with
  | 0, _ => .ret 7
  | 1, _ => .panic
  | 2, [] => .get 0 false
  | 2, [some _] => .get 1 true
  | 2, some a :: some b :: _ => .ret (a + b)
  | 2, some a :: none :: _ => .ret (a + 100)
  | _, _ => .ret 0, 0⟩

def caseMain : Nat → List (Option Nat) → Option Nat := fun t got =>
  if t = 0 ∧ got = [] then some 2 else if t = 1 ∧ got = [] then some 0 else none

theorem case_main (t : Nat) : MainEnds caseProg (caseMain t) [] := by
  have stop : ∀ r, MainEnds caseProg (caseMain t) ([] ++ [r]) := fun r => .stop (by simp [caseMain])
  have e0 : Ends caseProg 0 [] := .ret (v := 7) rfl
  have e1 : Ends caseProg 1 [] := .panic rfl
  by_cases h0 : t = 0
  · refine .get (i := 2) (by simp [caseMain, h0]) ?_ stop
    refine .get (j := 0) (g := false) rfl e0 (fun v => ?_) (fun h => by cases h)
    refine .get (j := 1) (g := true) rfl e1 (fun w => ?_) (fun _ => ?_)
    · exact .ret (v := v + w) rfl
    · exact .ret (v := v + 100) rfl
  · by_cases h1 : t = 1
    · exact .get (i := 0) (by simp [caseMain, h1]) e0 stop
    · exact .stop (by simp [caseMain, h0, h1])

example (σ : Nat → St Nat) (h0 : σ 0 = start caseProg) : ¬ ∀ n, ∃ t, Step caseProg caseMain t (σ n) (σ (n + 1)) :=
  C160_ends (N := 2) (fun t ht => by unfold caseMain; rw [if_neg (by omega), if_neg (by omega)]) case_main σ h0

/-- Lazy 0 has the value 7, so everybody gets 7 though lazy 1 panics. -/
example {s : St Nat} (h : Reach caseProg caseMain s) {r : Option Nat} (hr : (0, r) ∈ s.log) : r = some 7 :=
  C160_value h (.mk (.ret rfl)) hr

/-- Two lazies without panics. -/
example : NoPanic (⟨fun i got => match i, got with
    | 0, _ => .ret 7
    | _, [] => .get 0 false
    | _, _ => .ret 8, 0⟩ : Prog Nat) := by
  intro i got h
  rcases i with _ | i
  · cases h
  · rcases got with _ | _ <;> cases h

end Verif.LazyAll
