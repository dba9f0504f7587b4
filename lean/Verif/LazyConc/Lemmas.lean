import Verif.LazyConc.Spec
import Mathlib.Logic.Hydra
import Mathlib.Algebra.BigOperators.Group.Finset.Basic
import Mathlib.Tactic.Abel
/-!
# Invariants of lazies that need other lazies
-/
namespace Verif.LazyConc

variable {V : Type}

/-- The frame holds the mutex of `i`. -/
def holds (i : Nat) : Fr V → Bool
  | .check k => k = i
  | .build k _ _ => k = i
  | .write k _ => k = i
  | .setDone k => k = i
  | .unlock k => k = i
  | _ => false

/-- The frame is between the start of the constructor of `i` and the setting of `done`. -/
def act (i : Nat) : Fr V → Bool
  | .build k _ _ => k = i
  | .write k _ => k = i
  | .setDone k => k = i
  | _ => false

theorem act_holds {i : Nat} {f : Fr V} (h : act i f = true) : holds i f = true := by
  cases f <;> simp_all [act, holds]

theorem step_other {P : Prog V} {t u : Nat} {s s' : St V} (hs : Step P t s s') (hu : u ≠ t) :
    s'.thr u = s.thr u := by
  cases hs <;> simp [St.to, St.setMu, hu]

theorem ret_countP (p : Fr V → Bool) (hm : ∀ a b, p (.main a b) = false)
    (hb : ∀ i a b a' b', p (.build i a b) = p (.build i a' b')) (v : V) (l : List (Fr V)) :
    (ret v l).countP p = l.countP p := by
  cases l with
  | nil => rfl
  | cons f l =>
    cases f <;> simp only [ret, List.countP_cons]
    · simp [hm]
    · rw [hb]

theorem ret_holds (i : Nat) (v : V) (l : List (Fr V)) : (ret v l).countP (holds i) = l.countP (holds i) :=
  ret_countP _ (by simp [holds]) (by simp [holds]) v l

theorem ret_act (i : Nat) (v : V) (l : List (Fr V)) : (ret v l).countP (act i) = l.countP (act i) :=
  ret_countP _ (by simp [act]) (by simp [act]) v l

/-- The mutex of a lazy is held by the goroutine that is inside it, once. -/
def Locks (s : St V) : Prop := ∀ t i, (s.thr t).countP (holds i) = if s.mu i = some t then 1 else 0

theorem locks_step {P : Prog V} {t : Nat} {s s' : St V} (hi : Locks s) (hs : Step P t s s') : Locks s' := by
  intro u k
  have hu' := hi u k
  by_cases hu : u = t
  · subst hu
    cases hs with
    | lock i l h h2 =>
      rw [h] at hu'
      by_cases hm : k = i
      · subst hm; simp_all [St.to, St.setMu, holds]
      · simp_all [St.to, St.setMu, holds, Ne.symm hm]
    | unlock i l h =>
      rw [h] at hu'
      by_cases hm : k = i
      · subst hm
        have h3 : l.countP (holds k) = 0 := by
          rw [List.countP_cons] at hu'
          simp only [holds, decide_true, if_true] at hu'
          split at hu' <;> omega
        simp only [St.to, St.setMu, if_true, List.countP_cons, h3]
        simp [holds]
      · simp_all [St.to, St.setMu, holds, Ne.symm hm]
    | read i l h =>
      refine Eq.trans ?_ hu'
      rw [h]
      simp only [St.to, if_true, ret_holds]
      simp [holds, List.countP_cons]
    | call i todo got l h => refine Eq.trans ?_ hu'; rw [h]; simp [St.to, holds, List.countP_cons]
    | loadSet i l h _ => refine Eq.trans ?_ hu'; rw [h]; simp [St.to, holds, List.countP_cons]
    | loadUnset i l h _ => refine Eq.trans ?_ hu'; rw [h]; simp [St.to, holds, List.countP_cons]
    | checkSet i l h _ => refine Eq.trans ?_ hu'; rw [h]; simp [St.to, holds, List.countP_cons]
    | checkUnset i l h _ => refine Eq.trans ?_ hu'; rw [h]; simp [St.to, holds, List.countP_cons]
    | need i j todo got l h => refine Eq.trans ?_ hu'; rw [h]; simp [St.to, holds, List.countP_cons]
    | built i got l h => refine Eq.trans ?_ hu'; rw [h]; simp [St.to, holds, List.countP_cons]
    | write i v l h => refine Eq.trans ?_ hu'; rw [h]; simp [St.to, holds, List.countP_cons]
    | setDone i l h => refine Eq.trans ?_ hu'; rw [h]; simp [St.to, holds, List.countP_cons]
  · rw [step_other hs hu, hu']
    have ht := hi t
    cases hs with
    | lock i l h h2 =>
      by_cases hm : k = i
      · subst hm; simp [St.to, St.setMu, h2, Ne.symm hu]
      · simp [St.to, St.setMu, hm]
    | unlock i l h =>
      by_cases hm : k = i
      · subst hm
        have := ht k
        rw [h] at this
        simp [holds] at this
        have h3 : s.mu k = some t := by
          apply Classical.byContradiction
          intro hn
          simp [hn] at this
        simp [St.to, St.setMu, h3, Ne.symm hu]
      · simp [St.to, St.setMu, hm]
    | _ => rfl

theorem locks_reach {P : Prog V} {zero prog} {s : St V} (h : Reach P zero prog s) : Locks s := by
  induction h with
  | start => intro t i; simp [start, holds]
  | step _ hs ih => exact locks_step ih hs

theorem held_of_mem {s : St V} (hi : Locks s) {t i : Nat} {f : Fr V} (hf : f ∈ s.thr t) (ho : holds i f = true) :
    s.mu i = some t := by
  have := hi t i
  have h1 : 0 < (s.thr t).countP (holds i) := List.countP_pos_iff.2 ⟨f, hf, ho⟩
  apply Classical.byContradiction
  intro hn
  rw [if_neg hn] at this
  omega

/-- Two frames that hold the same mutex: the same goroutine, and the same place. -/
theorem rest_free {s : St V} (hi : Locks s) {t i : Nat} {f : Fr V} {l : List (Fr V)} (h : s.thr t = f :: l)
    (ho : holds i f = true) : l.countP (holds i) = 0 := by
  have h1 := hi t i
  rw [held_of_mem hi (f := f) (by rw [h]; exact List.mem_cons_self) ho, h, List.countP_cons] at h1
  simp [ho] at h1
  rw [List.countP_eq_zero]
  intro x hx
  simp [h1 x hx]

theorem others_free {s : St V} (hi : Locks s) {t u i : Nat} {f : Fr V} {l : List (Fr V)} (h : s.thr t = f :: l)
    (ho : holds i f = true) (hu : u ≠ t) : (s.thr u).countP (holds i) = 0 := by
  rw [hi u i, held_of_mem hi (f := f) (by rw [h]; exact List.mem_cons_self) ho]
  simp [Ne.symm hu]

theorem act_zero {i : Nat} {l : List (Fr V)} (h : l.countP (holds i) = 0) : l.countP (act i) = 0 := by
  rw [List.countP_eq_zero] at h ⊢
  intro x hx ha
  exact h x hx (act_holds ha)

/-- Before the constructor is started, while it is at work, after `done` was set. -/
def Stage (s : St V) (i : Nat) : Prop :=
  (s.done i = false ∧ s.starts i = 0 ∧ ∀ t, (s.thr t).countP (act i) = 0) ∨
  (s.done i = false ∧ s.starts i = 1 ∧ ∃ t, (s.thr t).countP (act i) = 1) ∨
  (s.done i = true ∧ s.starts i = 1 ∧ ∀ t, (s.thr t).countP (act i) = 0)

/-- Steps that leave `done` and `starts` alone and the number of active frames, too. -/
theorem stage_same {s s' : St V} {i : Nat} (h : Stage s i) (hd : s'.done i = s.done i) (hs : s'.starts i = s.starts i)
    (ha : ∀ t, (s'.thr t).countP (act i) = (s.thr t).countP (act i)) : Stage s' i := by
  unfold Stage
  simp only [hd, hs, ha]
  exact h

theorem act_to {s : St V} {t i : Nat} {l l' : List (Fr V)} (h : s.thr t = l)
    (hc : l'.countP (act i) = l.countP (act i)) (u : Nat) :
    ((s.to t l').thr u).countP (act i) = (s.thr u).countP (act i) := by
  by_cases hu : u = t
  · subst hu; simp [St.to, h, hc]
  · simp [St.to, hu]

theorem stage_step {P : Prog V} {t : Nat} {s s' : St V} (hl : Locks s) (hi : ∀ i, Stage s i) (hs : Step P t s s') :
    ∀ i, Stage s' i := by
  intro k
  cases hs with
  | call i todo got l h => exact stage_same (hi k) rfl rfl (act_to h (by simp [act]))
  | loadSet i l h _ => exact stage_same (hi k) rfl rfl (act_to h (by simp [act]))
  | loadUnset i l h _ => exact stage_same (hi k) rfl rfl (act_to h (by simp [act]))
  | lock i l h h2 => exact stage_same (hi k) rfl rfl (act_to (s := s.setMu i (some t)) h (by simp [act]))
  | checkSet i l h _ => exact stage_same (hi k) rfl rfl (act_to h (by simp [act]))
  | checkUnset i l h h2 =>
    by_cases hk : k = i
    · subst hk
      have h3 := rest_free hl h (i := k) (by simp [holds])
      have h4 : ∀ u, (s.thr u).countP (act k) = 0 := by
        intro u
        by_cases hu : u = t
        · subst hu; rw [h, List.countP_cons, act_zero h3]; simp [act]
        · exact act_zero (others_free hl h (by simp [holds]) hu)
      right; left
      rcases hi k with ⟨_, h5, _⟩ | ⟨_, _, u, hu⟩ | ⟨h5, _⟩
      · refine ⟨h2, by simp [St.to, h5], t, ?_⟩
        simp only [St.to, if_true, List.countP_cons, act_zero h3]
        simp [act]
      · rw [h4 u] at hu; cases hu
      · rw [h2] at h5; cases h5
    · refine stage_same (hi k) rfl (by simp [St.to, hk]) ?_
      intro u
      exact act_to (s := { s with starts := _ }) h (by simp [act, Ne.symm hk]) u
  | need i j todo got l h => exact stage_same (hi k) rfl rfl (act_to h (by simp [act, List.countP_cons]))
  | built i got l h => exact stage_same (hi k) rfl rfl (act_to h (by simp [act, List.countP_cons]))
  | write i v l h =>
    exact stage_same (hi k) rfl rfl (act_to (s := { s with value := _ }) h (by simp [act, List.countP_cons]))
  | setDone i l h =>
    by_cases hk : k = i
    · subst hk
      have h3 := rest_free hl h (i := k) (by simp [holds])
      right; right
      have hst : s.starts k = 1 := by
        rcases hi k with ⟨_, _, h6⟩ | ⟨_, h5, _⟩ | ⟨_, h5, _⟩
        · have := h6 t
          rw [h, List.countP_cons] at this
          simp [act] at this
        · exact h5
        · exact h5
      refine ⟨by simp [St.to], hst, fun u => ?_⟩
      by_cases hu : u = t
      · subst hu
        simp only [St.to, if_true, List.countP_cons, act_zero h3]
        simp [act]
      · simp only [St.to, hu, if_false]
        exact act_zero (others_free hl h (by simp [holds]) hu)
    · refine stage_same (hi k) (by simp [St.to, hk]) rfl ?_
      intro u
      exact act_to (s := { s with done := _ }) h (by simp [act, Ne.symm hk]) u
  | unlock i l h => exact stage_same (hi k) rfl rfl (act_to (s := s.setMu i none) h (by simp [act]))
  | read i l h => exact stage_same (hi k) rfl rfl (act_to h (by rw [ret_act]; simp [act]))

theorem stage_reach {P : Prog V} {zero prog} {s : St V} (h : Reach P zero prog s) : ∀ i, Stage s i := by
  induction h with
  | start => intro i; left; simp [start, act]
  | step hr hs ih => exact stage_step (locks_reach hr) ih hs

/-- The stack of a goroutine that is to get the lazies `p`: `w` is the lazy that the frames above are getting. -/
def okStack (P : Prog V) (val : Nat → V) (p : List Nat) : Option Nat → List (Fr V) → Prop
  | _, [] => False
  | w, .main todo got :: l => l = [] ∧ ∃ pre, p = pre ++ (w.toList ++ todo) ∧ got = pre.map val
  | w, .build i todo got :: l =>
    (∃ pre, P.deps i = pre ++ (w.toList ++ todo) ∧ got = pre.map val) ∧ okStack P val p (some i) l
  | w, .load i :: l => w = none ∧ okStack P val p (some i) l
  | w, .lock i :: l => w = none ∧ okStack P val p (some i) l
  | w, .check i :: l => w = none ∧ okStack P val p (some i) l
  | w, .write i v :: l => w = none ∧ v = val i ∧ okStack P val p (some i) l
  | w, .setDone i :: l => w = none ∧ okStack P val p (some i) l
  | w, .unlock i :: l => w = none ∧ okStack P val p (some i) l
  | w, .read i :: l => w = none ∧ okStack P val p (some i) l

/-- The top frame is about `i`, which is set. -/
def isSet (i : Nat) : Fr V → Bool
  | .unlock k => k = i
  | .read k => k = i
  | _ => false

structure Vals (P : Prog V) (val : Nat → V) (prog : Nat → List Nat) (s : St V) : Prop where
  stk : ∀ t, okStack P val (prog t) none (s.thr t)
  isset : ∀ t i, ∀ f ∈ s.thr t, isSet i f = true → s.done i = true
  done : ∀ i, s.done i = true → s.value i = val i
  setting : ∀ t i, Fr.setDone i ∈ s.thr t → s.value i = val i

theorem ret_ok {P : Prog V} {val : Nat → V} {p : List Nat} {i : Nat} {l : List (Fr V)}
    (h : okStack P val p (some i) l) : okStack P val p none (ret (val i) l) := by
  cases l with
  | nil => exact h
  | cons f l =>
    cases f with
    | main todo got =>
      obtain ⟨rfl, pre, h1, rfl⟩ := h
      exact ⟨rfl, pre ++ [i], by simpa using h1, by simp⟩
    | build k todo got =>
      obtain ⟨⟨pre, h1, rfl⟩, h2⟩ := h
      exact ⟨⟨pre ++ [i], by simpa using h1, by simp⟩, h2⟩
    | write k v => simp [okStack] at h
    | _ => simp [okStack] at h

theorem mem_ret {v : V} {l : List (Fr V)} {f : Fr V} (hf : f ∈ ret v l)
    (hm : ∀ a b, f ≠ .main a b) (hb : ∀ i a b, f ≠ .build i a b) : f ∈ l := by
  cases l with
  | nil => exact hf
  | cons x l =>
    cases x with
    | main a b =>
      simp only [ret, List.mem_cons] at hf
      rcases hf with rfl | hf
      · exact absurd rfl (hm _ _)
      · exact List.mem_cons_of_mem _ hf
    | build i a b =>
      simp only [ret, List.mem_cons] at hf
      rcases hf with rfl | hf
      · exact absurd rfl (hb _ _ _)
      · exact List.mem_cons_of_mem _ hf
    | _ => exact hf

/-- Frames of the new stack: those that say that a lazy is set, or is about to be, were in the old one or are new. -/
theorem vals_step {P : Prog V} {val : Nat → V} (hv : Solves P val) {prog} {t : Nat} {s s' : St V} (hl : Locks s)
    (hi : Vals P val prog s) (hs : Step P t s s') : Vals P val prog s' := by
  have hst := hi.stk t
  have hset := hi.isset t
  have hsg := hi.setting t
  have hsd : ∀ i, s.done i = true → s'.done i = true := by
    intro i h
    cases hs <;> simp [St.to, St.setMu, h]
  -- the value of a lazy that is set, or about to be, is not written
  have hval : ∀ i, s'.value i = s.value i ∨ (∃ l, s.thr t = .write i (val i) :: l) ∧ s'.value i = val i := by
    intro k
    cases hs with
    | write i v l h =>
      by_cases hk : k = i
      · subst hk
        rw [h] at hst
        right
        refine ⟨⟨l, by rw [h, hst.2.1]⟩, by simp [St.to, hst.2.1]⟩
      · left; simp [St.to, hk]
    | _ => left; rfl
  have hkeep : ∀ i, s.value i = val i → s'.value i = val i := by
    intro i h
    rcases hval i with h1 | ⟨_, h1⟩
    · rw [h1]; exact h
    · exact h1
  refine ⟨?_, ?_, ?_, ?_⟩
  · intro u
    by_cases hu : u = t
    · subst hu
      cases hs with
      | call i todo got l h =>
        rw [h] at hst; simp only [St.to, if_true]
        obtain ⟨rfl, pre, h1, h2⟩ := hst
        exact ⟨rfl, rfl, pre, h1, h2⟩
      | loadSet i l h _ => rw [h] at hst; simp only [St.to, if_true]; exact hst
      | loadUnset i l h _ => rw [h] at hst; simp only [St.to, if_true]; exact hst
      | lock i l h h2 => rw [h] at hst; simp only [St.to, if_true]; exact hst
      | checkSet i l h _ => rw [h] at hst; simp only [St.to, if_true]; exact hst
      | checkUnset i l h _ =>
        rw [h] at hst; simp only [St.to, if_true]
        exact ⟨⟨[], by simp, rfl⟩, hst.2⟩
      | need i j todo got l h =>
        rw [h] at hst; simp only [St.to, if_true]
        obtain ⟨⟨pre, h1, h2⟩, h3⟩ := hst
        exact ⟨rfl, ⟨pre, h1, h2⟩, h3⟩
      | built i got l h =>
        rw [h] at hst; simp only [St.to, if_true]
        obtain ⟨⟨pre, h1, rfl⟩, h3⟩ := hst
        refine ⟨rfl, ?_, h3⟩
        rw [hv i, h1]
        simp
      | write i v l h => rw [h] at hst; simp only [St.to, if_true]; exact ⟨rfl, hst.2.2⟩
      | setDone i l h => rw [h] at hst; simp only [St.to, if_true]; exact hst
      | unlock i l h => rw [h] at hst; simp only [St.to, if_true]; exact hst
      | read i l h =>
        rw [h] at hst hset; simp only [St.to, if_true]
        rw [hi.done i (hset i _ List.mem_cons_self (by simp [isSet]))]
        exact ret_ok hst.2
    · rw [step_other hs hu]; exact hi.stk u
  · intro u k f hf hff
    by_cases hu : u = t
    · subst hu
      cases hs with
      | read i l h =>
        rw [h] at hset
        simp only [St.to, if_true] at hf
        have := mem_ret hf (by rintro a b rfl; simp [isSet] at hff) (by rintro i a b rfl; simp [isSet] at hff)
        exact hset k f (List.mem_cons_of_mem _ this) hff
      | loadSet i l h h2 =>
        rw [h] at hset
        simp only [St.to, if_true, List.mem_cons] at hf
        rcases hf with rfl | hf
        · simp [isSet] at hff; subst hff; exact h2
        · exact hset k f (List.mem_cons_of_mem _ hf) hff
      | checkSet i l h h2 =>
        rw [h] at hset
        simp only [St.to, if_true, List.mem_cons] at hf
        rcases hf with rfl | hf
        · simp [isSet] at hff; subst hff; exact h2
        · exact hset k f (List.mem_cons_of_mem _ hf) hff
      | setDone i l h =>
        rw [h] at hset
        simp only [St.to, if_true, List.mem_cons] at hf
        rcases hf with rfl | hf
        · simp [isSet] at hff; subst hff; simp [St.to]
        · exact hsd k (hset k f (List.mem_cons_of_mem _ hf) hff)
      | unlock i l h =>
        rw [h] at hset
        simp only [St.to, if_true, List.mem_cons] at hf
        rcases hf with rfl | hf
        · simp [isSet] at hff; subst hff; exact hset i (.unlock i) List.mem_cons_self (by simp [isSet])
        · exact hset k f (List.mem_cons_of_mem _ hf) hff
      | call i todo got l h =>
        rw [h] at hset
        simp only [St.to, if_true, List.mem_cons] at hf
        rcases hf with rfl | rfl | hf
        · simp [isSet] at hff
        · simp [isSet] at hff
        · exact hset k f (List.mem_cons_of_mem _ hf) hff
      | need i j todo got l h =>
        rw [h] at hset
        simp only [St.to, if_true, List.mem_cons] at hf
        rcases hf with rfl | rfl | hf
        · simp [isSet] at hff
        · simp [isSet] at hff
        · exact hset k f (List.mem_cons_of_mem _ hf) hff
      | loadUnset i l h _ =>
        rw [h] at hset
        simp only [St.to, if_true, List.mem_cons] at hf
        rcases hf with rfl | hf
        · simp [isSet] at hff
        · exact hset k f (List.mem_cons_of_mem _ hf) hff
      | lock i l h _ =>
        rw [h] at hset
        simp only [St.to, if_true, List.mem_cons] at hf
        rcases hf with rfl | hf
        · simp [isSet] at hff
        · exact hset k f (List.mem_cons_of_mem _ hf) hff
      | checkUnset i l h _ =>
        rw [h] at hset
        simp only [St.to, if_true, List.mem_cons] at hf
        rcases hf with rfl | hf
        · simp [isSet] at hff
        · exact hset k f (List.mem_cons_of_mem _ hf) hff
      | built i got l h =>
        rw [h] at hset
        simp only [St.to, if_true, List.mem_cons] at hf
        rcases hf with rfl | hf
        · simp [isSet] at hff
        · exact hset k f (List.mem_cons_of_mem _ hf) hff
      | write i v l h =>
        rw [h] at hset
        simp only [St.to, if_true, List.mem_cons] at hf
        rcases hf with rfl | hf
        · simp [isSet] at hff
        · exact hset k f (List.mem_cons_of_mem _ hf) hff
    · rw [step_other hs hu] at hf
      exact hsd k (hi.isset u k f hf hff)
  · intro k hd
    have : s.done k = true ∨ s.value k = val k := by
      cases hs with
      | setDone i l h =>
        by_cases hk : k = i
        · subst hk; right; exact hsg k (by rw [h]; exact List.mem_cons_self)
        · left; simpa [St.to, hk] using hd
      | _ => left; exact hd
    exact hkeep k (this.elim (hi.done k) id)
  · intro u k hf
    by_cases hu : u = t
    · subst hu
      have : Fr.setDone k ∈ s.thr u ∨ s'.value k = val k := by
        cases hs with
        | write i v l h =>
          rw [h] at hst ⊢
          simp only [St.to, if_true, List.mem_cons] at hf
          rcases hf with hf | hf
          · injection hf with hf; subst hf; right; simp [St.to, hst.2.1]
          · left; exact List.mem_cons_of_mem _ hf
        | read i l h =>
          rw [h]
          simp only [St.to, if_true] at hf
          left; exact List.mem_cons_of_mem _ (mem_ret hf (by simp) (by simp))
        | call i todo got l h => left; rw [h]; simpa [St.to] using hf
        | loadSet i l h _ => left; rw [h]; simpa [St.to] using hf
        | loadUnset i l h _ => left; rw [h]; simpa [St.to] using hf
        | lock i l h _ => left; rw [h]; simpa [St.to] using hf
        | checkSet i l h _ => left; rw [h]; simpa [St.to] using hf
        | checkUnset i l h _ => left; rw [h]; simpa [St.to] using hf
        | need i j todo got l h => left; rw [h]; simpa [St.to] using hf
        | built i got l h => left; rw [h]; simpa [St.to] using hf
        | setDone i l h => left; rw [h]; simp [St.to] at hf; simp [hf]
        | unlock i l h => left; rw [h]; simpa [St.to] using hf
      exact this.elim (fun h => hkeep k (hsg k h)) id
    · rw [step_other hs hu] at hf
      exact hkeep k (hi.setting u k hf)

theorem vals_reach {P : Prog V} {val : Nat → V} (hv : Solves P val) {zero prog} {s : St V}
    (h : Reach P zero prog s) : Vals P val prog s := by
  induction h with
  | start =>
    refine ⟨fun t => ⟨rfl, [], rfl, rfl⟩, ?_, ?_, ?_⟩
    · intro t i f hf hff; simp [start] at hf; subst hf; simp [isSet] at hff
    · intro i h; simp [start] at h
    · intro t i hf; simp [start] at hf
  | step hr hs ih => exact vals_step hv (locks_reach hr) ih hs

end Verif.LazyConc
