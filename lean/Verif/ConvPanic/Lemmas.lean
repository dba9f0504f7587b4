import Verif.ConvPanic.Spec
import Verif.ConvConc.Lemmas
/-!
# Invariants of the registry with converters that panic
-/
namespace Verif.ConvPanic

open ConvConc (Op W Ev latest latest_wrote latest_read)

variable {K : Type} [DecidableEq K]

def cls : List (Act K) → Nat
  | .acq _ :: _ => 1
  | .wr _ :: _ => 2
  | .unlock :: _ => 2
  | _ => 0

def Later : Act K → Prop
  | .prog _ => True
  | .runlock => True
  | .recovers => True
  | _ => False

def rdOK : List (Act K) → Prop
  | .rd _ _ :: .runlock :: _ => True
  | .rd _ _ :: _ => False
  | _ => True

structure Inv (m : K → Option Nat) (s : St K) : Prop where
  tl : ∀ t, ∀ a ∈ (s.thr t).tail, Later a
  cnt : ∀ t, s.r t = (s.thr t).count .runlock
  pend : ∀ t, s.w = .pend t ↔ cls (s.thr t) = 1
  held : ∀ t, s.w = .held t ↔ cls (s.thr t) = 2
  excl : ∀ t, s.w = .held t → ∀ u, s.r u = 0
  rd : ∀ t, rdOK (s.thr t)
  map : ∀ k, s.map k = latest m k s.log

theorem cls_later {l : List (Act K)} (h : ∀ a ∈ l, Later a) : cls l = 0 := by
  cases l with
  | nil => rfl
  | cons a l => have := h a (by simp); cases a <;> simp_all [Later, cls]

theorem rdOK_later {l : List (Act K)} (h : ∀ a ∈ l, Later a) : rdOK l := by
  cases l with
  | nil => trivial
  | cons a l => have := h a (by simp); cases a <;> simp_all [Later, rdOK]

theorem stack_later (p : Option (Prog K)) : ∀ a ∈ stack p, Later a := by
  cases p <;> simp [stack, Later]

theorem inv_start (m : K → Option Nat) (prog : Nat → Option (Prog K)) : Inv m (start m prog) := by
  refine ⟨fun t a ha => stack_later _ a (List.mem_of_mem_tail ha), ?_, ?_, ?_, ?_, fun t => rdOK_later (stack_later _), ?_⟩
    <;> intro t
  · cases h : prog t <;> simp [start, stack, h]
  · simp [start, cls_later (stack_later (prog t))]
  · simp [start, cls_later (stack_later (prog t))]
  · simp [start]
  · rfl

/-- A step that leaves the writer's side alone. -/
theorem inv_quiet {m : K → Option Nat} {s s' : St K} {t : Nat} {l : List (Act K)} (hi : Inv m s)
    (hw : s'.w = s.w) (hthr : s'.thr t = l) (hoth : ∀ u, u ≠ t → s'.thr u = s.thr u ∧ s'.r u = s.r u)
    (hc0 : cls (s.thr t) = 0) (hc1 : cls l = 0) (htl : ∀ a ∈ l.tail, Later a) (hrd : rdOK l)
    (hcnt : s'.r t = l.count .runlock) (hr : s.w = .free ∨ s'.r t ≤ s.r t)
    (hmap : ∀ k, s'.map k = latest m k s'.log) : Inv m s' := by
  refine ⟨?_, ?_, ?_, ?_, ?_, ?_, hmap⟩
  · intro u; by_cases hu : u = t
    · subst hu; rw [hthr]; exact htl
    · rw [(hoth u hu).1]; exact hi.tl u
  · intro u; by_cases hu : u = t
    · subst hu; rw [hthr]; exact hcnt
    · rw [(hoth u hu).1, (hoth u hu).2]; exact hi.cnt u
  · intro u; rw [hw, hi.pend u]; by_cases hu : u = t
    · subst hu; rw [hthr, hc0, hc1]
    · rw [(hoth u hu).1]
  · intro u; rw [hw, hi.held u]; by_cases hu : u = t
    · subst hu; rw [hthr, hc0, hc1]
    · rw [(hoth u hu).1]
  · intro u hu v
    rw [hw] at hu
    have := hi.excl u hu v
    by_cases hv : v = t
    · subst hv
      rcases hr with hr | hr
      · rw [hr] at hu; cases hu
      · omega
    · rw [(hoth v hv).2]; exact this
  · intro u; by_cases hu : u = t
    · subst hu; rw [hthr]; exact hrd
    · rw [(hoth u hu).1]; exact hi.rd u

/-- A step on the writer's side. -/
theorem inv_loud {m : K → Option Nat} {s s' : St K} {t : Nat} {l : List (Act K)} (hi : Inv m s)
    (hthr : s'.thr t = l) (hoth : ∀ u, u ≠ t → s'.thr u = s.thr u) (hreq : s'.r = s.r)
    (htl : ∀ a ∈ l.tail, Later a) (hrd : rdOK l) (hcnt : s.r t = l.count .runlock)
    (hp : ∀ u, s'.w = .pend u ↔ u = t ∧ cls l = 1) (hh : ∀ u, s'.w = .held u ↔ u = t ∧ cls l = 2)
    (hne : ∀ u, u ≠ t → cls (s.thr u) = 0) (h0 : cls l = 2 → ∀ u, s.r u = 0)
    (hmap : ∀ k, s'.map k = latest m k s'.log) : Inv m s' := by
  refine ⟨?_, ?_, ?_, ?_, ?_, ?_, hmap⟩
  · intro u; by_cases hu : u = t
    · subst hu; rw [hthr]; exact htl
    · rw [hoth u hu]; exact hi.tl u
  · intro u; rw [hreq]; by_cases hu : u = t
    · subst hu; rw [hthr]; exact hcnt
    · rw [hoth u hu]; exact hi.cnt u
  · intro u; rw [hp]; by_cases hu : u = t
    · subst hu; rw [hthr]; simp
    · rw [hoth u hu, hne u hu]; simp [hu]
  · intro u; rw [hh]; by_cases hu : u = t
    · subst hu; rw [hthr]; simp
    · rw [hoth u hu, hne u hu]; simp [hu]
  · intro u hu v
    rw [hreq]
    exact h0 ((hh u).1 hu).2 v
  · intro u; by_cases hu : u = t
    · subst hu; rw [hthr]; exact hrd
    · rw [hoth u hu]; exact hi.rd u

theorem cls_le (l : List (Act K)) : cls l = 0 ∨ cls l = 1 ∨ cls l = 2 := by
  cases l with
  | nil => simp [cls]
  | cons a l => cases a <;> simp [cls]

theorem others_free {m : K → Option Nat} {s : St K} (hi : Inv m s) (hw : s.w = .free) (u : Nat) :
    cls (s.thr u) = 0 := by
  rcases cls_le (s.thr u) with h | h | h
  · exact h
  · have := (hi.pend u).2 h; rw [hw] at this; cases this
  · have := (hi.held u).2 h; rw [hw] at this; cases this

theorem others_pend {m : K → Option Nat} {s : St K} {t : Nat} (hi : Inv m s) (hw : s.w = .pend t) (u : Nat)
    (hu : u ≠ t) : cls (s.thr u) = 0 := by
  rcases cls_le (s.thr u) with h | h | h
  · exact h
  · have := (hi.pend u).2 h; rw [hw] at this; injection this with h1; exact absurd h1.symm hu
  · have := (hi.held u).2 h; rw [hw] at this; cases this

theorem others_held {m : K → Option Nat} {s : St K} {t : Nat} (hi : Inv m s) (hw : s.w = .held t) (u : Nat)
    (hu : u ≠ t) : cls (s.thr u) = 0 := by
  rcases cls_le (s.thr u) with h | h | h
  · exact h
  · have := (hi.pend u).2 h; rw [hw] at this; cases this
  · have := (hi.held u).2 h; rw [hw] at this; injection this with h1; exact absurd h1.symm hu

theorem to_thr (s : St K) (t : Nat) (l : List (Act K)) : (s.to t l).thr t = l := by simp [St.to]

theorem to_oth (s : St K) (t : Nat) (l : List (Act K)) (u : Nat) (h : u ≠ t) : (s.to t l).thr u = s.thr u := by
  simp [St.to, h]

theorem after_later (body : Nat → Prog K) (b : Bool) (f : Option Nat) : ∀ a ∈ after body b f, Later a := by
  intro a ha
  cases f <;> cases b <;> simp [after] at ha
  subst ha
  trivial

theorem after_count (body : Nat → Prog K) (b : Bool) (f : Option Nat) :
    (after body b f).count .runlock = 0 := by
  cases f <;> cases b <;> simp [after]

/-- A step that changes only the stack, to one that is not in the middle of a call. -/
theorem inv_local {m : K → Option Nat} {s : St K} {t : Nat} {l : List (Act K)} (hi : Inv m s)
    (hc0 : cls (s.thr t) = 0) (hc1 : cls l = 0) (htl : ∀ a ∈ l.tail, Later a) (hrd : rdOK l)
    (hcnt : (s.thr t).count .runlock = l.count .runlock) : Inv m (s.to t l) :=
  inv_quiet (t := t) hi rfl (to_thr s t l) (fun u hu => ⟨to_oth s t l u hu, rfl⟩) hc0 hc1 htl hrd
    ((hi.cnt t).trans hcnt) (Or.inr (Nat.le_refl _)) hi.map

/-- A step that leaves the lock. -/
theorem inv_leave {m : K → Option Nat} {s : St K} {t : Nat} {l : List (Act K)} (hi : Inv m s)
    (hc0 : cls (s.thr t) = 0) (hc1 : cls l = 0) (htl : ∀ a ∈ l.tail, Later a) (hrd : rdOK l)
    (hcnt : (s.thr t).count .runlock = l.count .runlock + 1) : Inv m ((s.rdrs t (s.r t - 1)).to t l) := by
  refine inv_quiet (t := t) (l := l) hi rfl (to_thr _ t l) (fun u hu => ⟨to_oth _ t l u hu, ?_⟩) hc0 hc1 htl hrd
    ?_ (Or.inr ?_) hi.map
  · simp [St.to, St.rdrs, hu]
  · have := hi.cnt t
    simp only [St.to, St.rdrs, if_true]
    omega
  · simp [St.to, St.rdrs]

theorem inv_step {body : Nat → Prog K} {m : K → Option Nat} {t : Nat} {s s' : St K}
    (hi : Inv m s) (hs : Step body t s s') : Inv m s' := by
  have hp := hi.pend t
  have hh := hi.held t
  have hc := hi.cnt t
  have ht := hi.tl t
  have hrd := hi.rd t
  cases hs with
  | announce o p rest h hw =>
    rw [h] at hc ht
    refine inv_loud (t := t) hi (to_thr _ _ _) (to_oth _ _ _) rfl ?_ trivial ?_ ?_ ?_ (fun u _ => others_free hi hw u) ?_ hi.map
    · intro a ha
      rcases List.mem_cons.1 ha with rfl | ha
      · trivial
      · exact ht a ha
    · rw [hc]; simp
    · intro u; simp [St.to, cls, eq_comm]
    · intro u; simp [St.to, cls]
    · intro h; simp [cls] at h
  | acquire o rest h hw h0 =>
    rw [h] at hc ht
    refine inv_loud (t := t) hi (to_thr _ _ _) (to_oth _ _ _) rfl ht trivial ?_ ?_ ?_ (others_pend hi hw) (fun _ => h0) hi.map
    · rw [hc]; simp
    · intro u; simp [St.to, cls]
    · intro u; simp [St.to, cls, eq_comm]
  | write o rest h =>
    rw [h] at hc ht hh
    have hw : s.w = .held t := hh.2 rfl
    refine inv_loud (t := t) hi (to_thr _ _ _) (to_oth _ _ _) rfl ht trivial ?_ ?_ ?_ (others_held hi hw)
      (fun _ => hi.excl t hw) (fun k => latest_wrote m k s.log t o s.map hi.map)
    · rw [hc]; simp
    · intro u; simp [St.to, cls, hw]
    · intro u; simp [St.to, cls, hw, eq_comm]
  | unlock rest h =>
    rw [h] at hc ht hh
    have hw : s.w = .held t := hh.2 rfl
    have hl : ∀ a ∈ rest, Later a := ht
    refine inv_loud (t := t) hi (to_thr _ _ _) (to_oth _ _ _) rfl (fun a ha => hl a (List.mem_of_mem_tail ha))
      (rdOK_later hl) ?_ ?_ ?_ (others_held hi hw) (fun _ => hi.excl t hw) hi.map
    · rw [hc]; simp
    · intro u; simp [St.to, cls_later hl]
    · intro u; simp [St.to, cls_later hl]
  | rlock k run p rest h hw =>
    rw [h] at hc ht
    refine inv_quiet (t := t) hi rfl (to_thr _ _ _) (fun u hu => ⟨to_oth _ _ _ u hu, ?_⟩) (by rw [h]; rfl) rfl ?_ trivial
      ?_ (Or.inl hw) hi.map
    · simp [St.to, St.rdrs, hu]
    · intro a ha
      rcases List.mem_cons.1 ha with rfl | ha
      · trivial
      rcases List.mem_cons.1 ha with rfl | ha
      · trivial
      · exact ht a ha
    · simp [St.to, St.rdrs, hc]
  | read k run rest h =>
    rw [h] at hc ht
    have hl : ∀ a ∈ after body run (s.map k) ++ rest, Later a := by
      intro a ha
      rcases List.mem_append.1 ha with ha | ha
      · exact after_later _ _ _ a ha
      · exact ht a ha
    refine inv_quiet (t := t) hi rfl (to_thr _ _ _) (fun u hu => ⟨to_oth _ _ _ u hu, rfl⟩) (by rw [h]; rfl)
      (cls_later hl) (fun a ha => hl a (List.mem_of_mem_tail ha)) (rdOK_later hl) ?_ (Or.inr (Nat.le_refl _)) ?_
    · show s.r t = _
      rw [hc, List.count_append, after_count]; simp
    · intro k'
      show s.map k' = latest m k' (s.log ++ [_])
      rw [latest_read, hi.map]
  | runlock rest h =>
    rw [h] at ht
    have hl : ∀ a ∈ rest, Later a := ht
    exact inv_leave hi (by rw [h]; rfl) (cls_later hl) (fun a ha => hl a (List.mem_of_mem_tail ha)) (rdOK_later hl)
      (by rw [h]; simp)
  | ret rest h =>
    rw [h] at ht
    have hl : ∀ a ∈ rest, Later a := ht
    exact inv_local hi (by rw [h]; rfl) (cls_later hl) (fun a ha => hl a (List.mem_of_mem_tail ha)) (rdOK_later hl)
      (by rw [h]; simp)
  | guard q p rest h =>
    rw [h] at ht
    refine inv_local hi (by rw [h]; rfl) rfl ?_ trivial (by rw [h]; simp)
    intro a ha
    rcases List.mem_cons.1 ha with rfl | ha
    · trivial
    rcases List.mem_cons.1 ha with rfl | ha
    · trivial
    · exact ht a ha
  | unneeded rest h =>
    rw [h] at ht
    have hl : ∀ a ∈ rest, Later a := ht
    exact inv_local hi (by rw [h]; rfl) (cls_later hl) (fun a ha => hl a (List.mem_of_mem_tail ha)) (rdOK_later hl)
      (by rw [h]; simp)
  | panic rest h =>
    rw [h] at ht
    exact inv_local hi (by rw [h]; rfl) rfl ht trivial (by rw [h]; simp)
  | exit rest h =>
    rw [h] at ht
    exact inv_local hi (by rw [h]; rfl) rfl ht trivial (by rw [h]; simp)
  | skip all p rest h =>
    rw [h] at ht
    exact inv_local hi (by rw [h]; rfl) rfl (fun a ha => ht a (List.mem_of_mem_tail ha)) trivial (by rw [h]; simp)
  | deferred all rest h =>
    rw [h] at ht
    exact inv_leave hi (by rw [h]; rfl) rfl (fun a ha => ht a (List.mem_of_mem_tail ha)) trivial (by rw [h]; simp)
  | recover rest h =>
    rw [h] at ht
    have hl : ∀ a ∈ rest, Later a := fun a ha => ht a (List.mem_of_mem_tail ha)
    exact inv_local hi (by rw [h]; rfl) (cls_later hl) (fun a ha => hl a (List.mem_of_mem_tail ha)) (rdOK_later hl)
      (by rw [h]; simp)
  | through rest h =>
    rw [h] at ht
    exact inv_local hi (by rw [h]; rfl) rfl (fun a ha => ht a (List.mem_of_mem_tail ha)) trivial (by rw [h]; simp)
  | exited h =>
    exact inv_local hi (by rw [h]; rfl) rfl (by simp) trivial (by rw [h]; simp)

theorem inv_run {body : Nat → Prog K} {m : K → Option Nat} {prog} {s : St K}
    (h : Run body m prog s) : Inv m s := by
  induction h with
  | start => exact inv_start m prog
  | step _ hs ih => exact inv_step ih hs

/-! ## What a stack does -/

/-- What is left on a stack does, with the number of steps. -/
inductive Left (body : Nat → Prog K) : Nat → List (Act K) → List (Did K) → End → Prop where
  | nil : Left body 0 [] [] .returns
  | crash : Left body 0 [.abort false] [] .panics
  | exited : Left body 0 [.abort true] [] .exits
  | announce {n o p rest l e} : Left body n (.acq o :: .prog p :: rest) l e → Left body (n + 1) (.prog (.op o p) :: rest) l e
  | acquire {n o rest l e} : Left body n (.wr o :: rest) l e → Left body (n + 1) (.acq o :: rest) l e
  | write {n o rest l e} : Left body n (.unlock :: rest) l e → Left body (n + 1) (.wr o :: rest) (.change o :: l) e
  | unlock {n rest l e} : Left body n rest l e → Left body (n + 1) (.unlock :: rest) l e
  | rlock {n k run p rest l e} : Left body n (.rd k run :: .runlock :: .prog p :: rest) l e →
      Left body (n + 1) (.prog (.look k run p) :: rest) l e
  | read {n k run f rest l e} : Left body n (after body run f ++ rest) l e →
      Left body (n + 1) (.rd k run :: rest) (.look k run f :: l) e
  | runlock {n rest l e} : Left body n rest l e → Left body (n + 1) (.runlock :: rest) l e
  | ret {n rest l e} : Left body n rest l e → Left body (n + 1) (.prog .done :: rest) l e
  | guard {n q p rest l e} : Left body n (.prog q :: .recovers :: .prog p :: rest) l e →
      Left body (n + 1) (.prog (.guard q p) :: rest) l e
  | unneeded {n rest l e} : Left body n rest l e → Left body (n + 1) (.recovers :: rest) l e
  | panic {n rest l e} : Left body n (.abort false :: rest) l e → Left body (n + 1) (.prog .panic :: rest) l e
  | exit {n rest l e} : Left body n (.abort true :: rest) l e → Left body (n + 1) (.prog .exit :: rest) l e
  | skip {n all p rest l e} : Left body n (.abort all :: rest) l e → Left body (n + 1) (.abort all :: .prog p :: rest) l e
  | deferred {n all rest l e} : Left body n (.abort all :: rest) l e → Left body (n + 1) (.abort all :: .runlock :: rest) l e
  | recover {n rest l e} : Left body n rest l e → Left body (n + 1) (.abort false :: .recovers :: rest) l e
  | through {n rest l e} : Left body n (.abort true :: rest) l e → Left body (n + 1) (.abort true :: .recovers :: rest) l e

/-- How a program hands over to the rest of the stack. -/
def into (rest : List (Act K)) : End → List (Act K)
  | .returns => rest
  | .panics => .abort false :: rest
  | .exits => .abort true :: rest

theorem left_split {body : Nat → Prog K} (n : Nat) : ∀ {p : Prog K} {rest : List (Act K)} {l e},
    Left body n (.prog p :: rest) l e →
    ∃ l₁ l₂ e₁ n', l = l₁ ++ l₂ ∧ Does body p l₁ e₁ ∧ n' < n ∧ Left body n' (into rest e₁) l₂ e := by
  induction n using Nat.strongRecOn with
  | _ n ih =>
    intro p rest l e h
    cases h with
    | announce h =>
      cases h with
      | acquire h => cases h with
        | write h => cases h with
          | unlock h =>
            obtain ⟨l₁, l₂, e₁, n', rfl, hd, hn, hl⟩ := ih _ (by omega) h
            exact ⟨_ :: l₁, l₂, e₁, n', rfl, .op hd, by omega, hl⟩
    | @rlock n k run p rest l e h =>
      cases h with
      | @read n _ _ f _ l _ h =>
        have go : ∀ {l e m}, m ≤ n → Left body m (.runlock :: .prog p :: rest) l e →
            ∃ l₁ l₂ e₁ n', l = l₁ ++ l₂ ∧ Does body p l₁ e₁ ∧ n' < n + 1 + 1 ∧ Left body n' (into rest e₁) l₂ e := by
          intro l e m hm h
          cases h with
          | runlock h =>
            obtain ⟨l₁, l₂, e₁, n', rfl, hd, hn, hl⟩ := ih _ (by omega) h
            exact ⟨l₁, l₂, e₁, n', rfl, hd, by omega, hl⟩
        match f, run, h with
        | .none, run, h =>
          obtain ⟨l₁, l₂, e₁, n', rfl, hd, hn, hl⟩ := go (Nat.le_refl _) h
          exact ⟨_ :: l₁, l₂, e₁, n', rfl, .none hd, hn, hl⟩
        | .some c, false, h =>
          obtain ⟨l₁, l₂, e₁, n', rfl, hd, hn, hl⟩ := go (Nat.le_refl _) h
          exact ⟨_ :: l₁, l₂, e₁, n', rfl, .exist hd, hn, hl⟩
        | .some c, true, h =>
          obtain ⟨l₁, l₂, e₁, n', rfl, hd, hn, hl⟩ := ih n (by omega) h
          cases e₁ with
          | returns =>
            obtain ⟨l₃, l₄, e₂, n'', rfl, hd', hn', hl'⟩ := go (by omega) hl
            exact ⟨_ :: (l₁ ++ l₃), l₄, e₂, n'', by simp, .conv hd hd', hn', hl'⟩
          | panics =>
            cases hl with
            | deferred hl => cases hl with
              | skip hl => exact ⟨_ :: l₁, l₂, .panics, _, rfl, .torn hd (by simp), by omega, hl⟩
          | exits =>
            cases hl with
            | deferred hl => cases hl with
              | skip hl => exact ⟨_ :: l₁, l₂, .exits, _, rfl, .torn hd (by simp), by omega, hl⟩
    | ret h => exact ⟨[], l, .returns, _, rfl, .done, by omega, h⟩
    | guard h =>
      obtain ⟨l₁, l₂, e₁, n', rfl, hd, hn, hl⟩ := ih _ (by omega) h
      cases e₁ with
      | returns =>
        cases hl with
        | unneeded hl =>
          obtain ⟨l₃, l₄, e₂, n'', rfl, hd', hn', hl'⟩ := ih _ (by omega) hl
          exact ⟨l₁ ++ l₃, l₄, e₂, n'', by simp, .guard hd (by simp) hd', by omega, hl'⟩
      | panics =>
        cases hl with
        | recover hl =>
          obtain ⟨l₃, l₄, e₂, n'', rfl, hd', hn', hl'⟩ := ih _ (by omega) hl
          exact ⟨l₁ ++ l₃, l₄, e₂, n'', by simp, .guard hd (by simp) hd', by omega, hl'⟩
      | exits =>
        cases hl with
        | through hl => cases hl with
          | skip hl => exact ⟨l₁, l₂, .exits, _, rfl, .quit hd, by omega, hl⟩
    | panic h => exact ⟨[], l, .panics, _, rfl, .panic, by omega, h⟩
    | exit h => exact ⟨[], l, .exits, _, rfl, .exit, by omega, h⟩

theorem left_does {body : Nat → Prog K} {n : Nat} {p : Prog K} {l e}
    (h : Left body n [.prog p] l e) : Does body p l e := by
  obtain ⟨l₁, l₂, e₁, n', rfl, hd, hn, hl⟩ := left_split n h
  cases e₁ <;> cases hl <;> simpa using hd

theorem didOf_append (t : Nat) (l l' : List (Ev K)) : didOf t (l ++ l') = didOf t l ++ didOf t l' := by
  induction l with
  | nil => rfl
  | cons a l ih => cases a <;> simp only [List.cons_append, didOf, ih] <;> split <;> simp

theorem did_wrote (t u : Nat) (o : Op K) (l : List (Ev K)) : didOf t (l ++ [.wrote u o]) = didOf t l ++ (if u = t then [.change o] else []) := by
  rw [didOf_append]; simp only [didOf]

theorem did_read (t u : Nat) (k : K) (b : Bool) (f : Option Nat) (l : List (Ev K)) :
    didOf t (l ++ [.read u k b f]) = didOf t l ++ (if u = t then [.look k b f] else []) := by
  rw [didOf_append]; simp only [didOf]

/-- What a goroutine has done, then what is left, is what it would have done before the step. -/
theorem left_step {body : Nat → Prog K} {t u : Nat} {s s' : St K} (hs : Step body u s s') {l : List (Did K)} {e : End}
    {n : Nat} (h : Left body n (s'.thr t) l e) :
    ∃ n' l' e', didOf t s'.log ++ l = didOf t s.log ++ l' ∧ Left body n' (s.thr t) l' e' ∧ (e' = .panics ↔ e = .panics) := by
  by_cases hu : u = t
  · subst hu
    have key : ∀ {L : List (Act K)} {l' : List (Did K)} {n'}, s.thr u = L → Left body n' L l' e →
        didOf u s'.log ++ l = didOf u s.log ++ l' →
        ∃ n' l' e', didOf u s'.log ++ l = didOf u s.log ++ l' ∧ Left body n' (s.thr u) l' e' ∧ (e' = .panics ↔ e = .panics) :=
      fun hL hl he => ⟨_, _, _, he, hL ▸ hl, Iff.rfl⟩
    cases hs with
    | announce o p rest h1 => rw [to_thr] at h; exact key h1 (.announce h) rfl
    | acquire o rest h1 => rw [to_thr] at h; exact key h1 (.acquire h) rfl
    | write o rest h1 =>
      rw [to_thr] at h
      refine key h1 (.write h) ?_
      simp [St.to, did_wrote]
    | unlock rest h1 => rw [to_thr] at h; exact key h1 (.unlock h) rfl
    | rlock k run p rest h1 => rw [to_thr] at h; exact key h1 (.rlock h) rfl
    | read k run rest h1 =>
      rw [to_thr] at h
      refine key h1 (.read h) ?_
      simp [St.to, did_read]
    | runlock rest h1 => rw [to_thr] at h; exact key h1 (.runlock h) rfl
    | ret rest h1 => rw [to_thr] at h; exact key h1 (.ret h) rfl
    | guard q p rest h1 => rw [to_thr] at h; exact key h1 (.guard h) rfl
    | unneeded rest h1 => rw [to_thr] at h; exact key h1 (.unneeded h) rfl
    | panic rest h1 => rw [to_thr] at h; exact key h1 (.panic h) rfl
    | exit rest h1 => rw [to_thr] at h; exact key h1 (.exit h) rfl
    | skip all p rest h1 => rw [to_thr] at h; exact key h1 (.skip h) rfl
    | deferred all rest h1 => rw [to_thr] at h; exact key h1 (.deferred h) rfl
    | recover rest h1 => rw [to_thr] at h; exact key h1 (.recover h) rfl
    | through rest h1 => rw [to_thr] at h; exact key h1 (.through h) rfl
    | exited h1 =>
      rw [to_thr] at h
      cases h
      exact ⟨0, [], .exits, rfl, h1 ▸ .exited, by simp⟩
  · have hu' : t ≠ u := fun h => hu h.symm
    refine ⟨n, l, e, ?_, ?_, Iff.rfl⟩
    · cases hs <;> simp [St.to, St.rdrs, did_wrote, did_read, hu]
    · have : s'.thr t = s.thr t := by cases hs <;> simp [St.to, St.rdrs, hu']
      rw [← this]; exact h

theorem left_run {body : Nat → Prog K} {m : K → Option Nat} {prog} {s : St K} (h : Run body m prog s) {t n : Nat} {l e}
    (hl : Left body n (s.thr t) l e) :
    ∃ n' e', Left body n' (stack (prog t)) (didOf t s.log ++ l) e' ∧ (e' = .panics ↔ e = .panics) := by
  induction h generalizing n l e with
  | start => exact ⟨n, e, hl, Iff.rfl⟩
  | step _ hs ih =>
    obtain ⟨n', l', e', h1, h2, h3⟩ := left_step hs hl
    obtain ⟨n'', e'', h4, h5⟩ := ih h2
    exact ⟨n'', e'', h1 ▸ h4, h5.trans h3⟩

/-! ## Going on -/

theorem free_step {body : Nat → Prog K} {m : K → Option Nat} {s : St K} (hi : Inv m s) (hw : s.w = .free) {t : Nat}
    (ht : ¬ Over (s.thr t)) : ∃ s', Step body t s s' := by
  have hc := others_free hi hw t
  have hl := hi.tl t
  cases h : s.thr t with
  | nil => exact absurd (Or.inl h) ht
  | cons a rest =>
    rw [h] at hc hl
    cases a with
    | prog p =>
      cases p with
      | done => exact ⟨_, .ret s rest h⟩
      | op o p => exact ⟨_, .announce s o p rest h hw⟩
      | look k b p => exact ⟨_, .rlock s k b p rest h hw⟩
      | guard q p => exact ⟨_, .guard s q p rest h⟩
      | panic => exact ⟨_, .panic s rest h⟩
      | exit => exact ⟨_, .exit s rest h⟩
    | acq o => simp [cls] at hc
    | wr o => simp [cls] at hc
    | unlock => simp [cls] at hc
    | rd k b => exact ⟨_, .read s k b rest h⟩
    | runlock => exact ⟨_, .runlock s rest h⟩
    | recovers => exact ⟨_, .unneeded s rest h⟩
    | abort all =>
      cases rest with
      | nil =>
        cases all with
        | false => exact absurd (Or.inr h) ht
        | true => exact ⟨_, .exited s h⟩
      | cons b rest =>
        have hb := hl b (by simp)
        cases b with
        | prog p => exact ⟨_, .skip s all p rest h⟩
        | runlock => exact ⟨_, .deferred s all rest h⟩
        | recovers =>
          cases all with
          | false => exact ⟨_, .recover s rest h⟩
          | true => exact ⟨_, .through s rest h⟩
        | _ => cases hb

/-- With converters that leave the registry alone: what runs inside a converter does. -/
def Shape : List (Act K) → Prop
  | [] => True
  | .prog p :: rest => (Act.runlock ∈ rest → p.alone) ∧ Shape rest
  | .acq _ :: rest => Act.runlock ∉ rest ∧ Shape rest
  | _ :: rest => Shape rest

theorem shape_step {body : Nat → Prog K} (hb : ∀ c, (body c).alone) {t u : Nat} {s s' : St K}
    (hi : Shape (s.thr t)) (hs : Step body u s s') : Shape (s'.thr t) := by
  by_cases hu : u = t
  · subst hu
    cases hs with
    | announce o p rest h => rw [to_thr]; rw [h] at hi; exact ⟨fun hr => (hi.1 (by simpa using hr)).elim, fun hr => (hi.1 hr).elim, hi.2⟩
    | acquire o rest h => rw [to_thr]; rw [h] at hi; exact hi.2
    | write o rest h => rw [to_thr]; rw [h] at hi; exact hi
    | unlock rest h => rw [to_thr]; rw [h] at hi; exact hi
    | rlock k b p rest h => rw [to_thr]; rw [h] at hi; exact ⟨fun hr => (hi.1 hr).elim, hi.2⟩
    | read k b rest h =>
      rw [to_thr]; rw [h] at hi
      cases s.map k with
      | none => exact hi
      | some c =>
        cases b with
        | false => exact hi
        | true => exact ⟨fun _ => hb c, hi⟩
    | runlock rest h => rw [to_thr]; rw [h] at hi; exact hi
    | ret rest h => rw [to_thr]; rw [h] at hi; exact hi.2
    | guard q p rest h =>
      rw [to_thr]; rw [h] at hi
      refine ⟨fun hr => (hi.1 (by simpa using hr)).1, fun hr => (hi.1 hr).2, hi.2⟩
    | unneeded rest h => rw [to_thr]; rw [h] at hi; exact hi
    | panic rest h => rw [to_thr]; rw [h] at hi; exact hi.2
    | exit rest h => rw [to_thr]; rw [h] at hi; exact hi.2
    | skip all p rest h => rw [to_thr]; rw [h] at hi; exact hi.2
    | deferred all rest h => rw [to_thr]; rw [h] at hi; exact hi
    | recover rest h => rw [to_thr]; rw [h] at hi; exact hi
    | through rest h => rw [to_thr]; rw [h] at hi; exact hi
    | exited h => rw [to_thr]; trivial
  · have hu' : t ≠ u := fun h => hu h.symm
    have : s'.thr t = s.thr t := by cases hs <;> simp [St.to, St.rdrs, hu']
    rw [this]; exact hi

theorem shape_run {body : Nat → Prog K} (hb : ∀ c, (body c).alone) {m : K → Option Nat} {prog} {s : St K}
    (h : Run body m prog s) (t : Nat) : Shape (s.thr t) := by
  induction h with
  | start => cases hp : prog t <;> simp [start, stack, hp, Shape]
  | step _ hs ih => exact shape_step hb ih hs

theorem alone_step {body : Nat → Prog K} {m : K → Option Nat} {s : St K} (hi : Inv m s)
    (hsh : ∀ t, Shape (s.thr t)) {t : Nat} (ht : ¬ Over (s.thr t)) : ∃ u s', Step body u s s' := by
  cases hw : s.w with
  | free => exact ⟨t, free_step hi hw ht⟩
  | held t =>
    have hc := (hi.held t).1 hw
    cases ht : s.thr t with
    | nil => rw [ht] at hc; cases hc
    | cons a rest =>
      rw [ht] at hc
      cases a with
      | wr o => exact ⟨t, _, .write s o rest ht⟩
      | unlock => exact ⟨t, _, .unlock s rest ht⟩
      | _ => simp [cls] at hc
  | pend t =>
    have hc := (hi.pend t).1 hw
    by_cases h0 : ∀ u, s.r u = 0
    · cases ht : s.thr t with
      | nil => rw [ht] at hc; cases hc
      | cons a rest =>
        rw [ht] at hc
        cases a with
        | acq o => exact ⟨t, _, .acquire s o rest ht hw h0⟩
        | _ => simp [cls] at hc
    · obtain ⟨u, hu⟩ := Classical.not_forall.1 h0
      have hcu := hi.cnt u
      have hmem : Act.runlock ∈ s.thr u := by
        rw [← List.count_pos_iff]; omega
      have hl := hi.tl u
      have hs := hsh u
      have hpe := hi.held u
      rw [hw] at hpe
      refine ⟨u, ?_⟩
      cases h : s.thr u with
      | nil => rw [h] at hmem; cases hmem
      | cons a rest =>
        rw [h] at hmem hl hs hpe
        cases a with
        | prog p =>
          have hal := hs.1 (by simpa using hmem)
          cases p with
          | done => exact ⟨_, .ret s rest h⟩
          | op o p => exact hal.elim
          | look k b p => exact hal.elim
          | guard q p => exact ⟨_, .guard s q p rest h⟩
          | panic => exact ⟨_, .panic s rest h⟩
          | exit => exact ⟨_, .exit s rest h⟩
        | acq o => exact absurd (by simpa using hmem) hs.1
        | wr o => exact absurd (hpe.2 rfl) (by simp)
        | unlock => exact absurd (hpe.2 rfl) (by simp)
        | rd k b => exact ⟨_, .read s k b rest h⟩
        | runlock => exact ⟨_, .runlock s rest h⟩
        | recovers => exact ⟨_, .unneeded s rest h⟩
        | abort all =>
          cases rest with
          | nil => simp at hmem
          | cons b rest =>
            have hb := hl b (by simp)
            cases b with
            | prog p => exact ⟨_, .skip s all p rest h⟩
            | runlock => exact ⟨_, .deferred s all rest h⟩
            | recovers =>
              cases all with
              | false => exact ⟨_, .recover s rest h⟩
              | true => exact ⟨_, .through s rest h⟩
            | _ => cases hb

/-! ## Coming to an end -/

/-- The calls that are still to come. -/
def Prog.calls : Prog K → Nat
  | .op _ p => p.calls + 1
  | .look _ _ p => p.calls + 1
  | .guard q p => q.calls + p.calls
  | _ => 0

def Act.calls : Act K → Nat
  | .prog p => p.calls
  | .rd _ _ => 1
  | _ => 0

def Prog.size : Prog K → Nat
  | .op _ p => p.size + 4
  | .look _ _ p => p.size + 3
  | .guard q p => q.size + p.size + 2
  | .done => 1
  | _ => 2

def Act.size : Act K → Nat
  | .prog p => p.size
  | .acq _ => 3
  | .wr _ => 2
  | _ => 1

omit [DecidableEq K] in
theorem Prog.size_pos (p : Prog K) : 0 < p.size := by cases p <;> simp [Prog.size]

def calls (l : List (Act K)) : Nat := (l.map Act.calls).sum
def size (l : List (Act K)) : Nat := (l.map Act.size).sum

omit [DecidableEq K] in
theorem Prog.alone_calls {p : Prog K} (h : p.alone) : p.calls = 0 := by
  induction p with
  | guard q p ihq ihp => simp [Prog.calls, ihq h.1, ihp h.2]
  | op o p => exact h.elim
  | look k b p => exact h.elim
  | _ => rfl

/-- Each step makes fewer calls be to come, or leaves their number and makes the rest smaller. -/
theorem measure_step {body : Nat → Prog K} (hb : ∀ c, (body c).alone) {t : Nat} {s s' : St K} (hs : Step body t s s') :
    calls (s'.thr t) < calls (s.thr t) ∨
      (calls (s'.thr t) ≤ calls (s.thr t) ∧ size (s'.thr t) < size (s.thr t)) := by
  have key : ∀ {L L' : List (Act K)}, s.thr t = L → s'.thr t = L' →
      (calls L' < calls L ∨ (calls L' ≤ calls L ∧ size L' < size L)) →
      calls (s'.thr t) < calls (s.thr t) ∨
      (calls (s'.thr t) ≤ calls (s.thr t) ∧ size (s'.thr t) < size (s.thr t)) := by
    intro L L' h1 h2 h; rw [h1, h2]; exact h
  cases hs with
  | announce o p rest h =>
    refine key h (to_thr _ _ _) (Or.inl ?_)
    simp [calls, Act.calls, Prog.calls]
  | acquire o rest h =>
    refine key h (to_thr _ _ _) ?_
    simp [calls, size, Act.calls, Act.size]
  | write o rest h =>
    refine key h (to_thr _ _ _) ?_
    simp [calls, size, Act.calls, Act.size]
  | unlock rest h =>
    refine key h (to_thr _ _ _) ?_
    simp [calls, size, Act.calls, Act.size]
  | rlock k b p rest h =>
    refine key h (to_thr _ _ _) ?_
    simp [calls, size, Act.calls, Act.size, Prog.calls, Prog.size]; omega
  | read k b rest h =>
    refine key h (to_thr _ _ _) (Or.inl ?_)
    cases s.map k with
    | none => simp [calls, after, Act.calls]
    | some c => cases b <;> simp [calls, after, Act.calls, Prog.alone_calls (hb c)]
  | runlock rest h =>
    refine key h (to_thr _ _ _) ?_
    simp [calls, size, Act.calls, Act.size]
  | ret rest h =>
    refine key h (to_thr _ _ _) ?_
    simp [calls, size, Act.calls, Act.size, Prog.calls, Prog.size]
  | guard q p rest h =>
    refine key h (to_thr _ _ _) ?_
    simp [calls, size, Act.calls, Act.size, Prog.calls, Prog.size]; omega
  | unneeded rest h =>
    refine key h (to_thr _ _ _) ?_
    simp [calls, size, Act.calls, Act.size]
  | panic rest h =>
    refine key h (to_thr _ _ _) ?_
    simp [calls, size, Act.calls, Act.size, Prog.calls, Prog.size]
  | exit rest h =>
    refine key h (to_thr _ _ _) ?_
    simp [calls, size, Act.calls, Act.size, Prog.calls, Prog.size]
  | skip all p rest h =>
    refine key h (to_thr _ _ _) ?_
    have := p.size_pos
    simp [calls, size, Act.calls, Act.size]; omega
  | deferred all rest h =>
    refine key h (to_thr _ _ _) ?_
    simp [calls, size, Act.calls, Act.size]
  | recover rest h =>
    refine key h (to_thr _ _ _) ?_
    simp [calls, size, Act.calls, Act.size]; omega
  | through rest h =>
    refine key h (to_thr _ _ _) ?_
    simp [calls, size, Act.calls, Act.size]
  | exited h =>
    refine key h (to_thr _ _ _) ?_
    simp [calls, size, Act.calls, Act.size]

theorem step_oth {body : Nat → Prog K} {t : Nat} {s s' : St K} (hs : Step body t s s') {u : Nat} (hu : u ≠ t) :
    s'.thr u = s.thr u := by cases hs <;> simp [St.to, St.rdrs, hu]

theorem step_ne {body : Nat → Prog K} {t : Nat} {s s' : St K} (hs : Step body t s s') : s.thr t ≠ [] := by
  cases hs <;> simp_all

theorem no_endless {body : Nat → Prog K} (hb : ∀ c, (body c).alone) {N : Nat} (a b : Nat) (τ : Nat → St K)
    (h0 : ∀ t, N ≤ t → (τ 0).thr t = []) (hs : ∀ n, ∃ t, Step body t (τ n) (τ (n + 1)))
    (ha : ∑ t ∈ Finset.range N, calls ((τ 0).thr t) ≤ a) (hb' : ∑ t ∈ Finset.range N, size ((τ 0).thr t) ≤ b) : False := by
  induction a using Nat.strongRecOn generalizing b τ with
  | _ a iha =>
    induction b using Nat.strongRecOn generalizing τ with
    | _ b ihb =>
      obtain ⟨t, ht⟩ := hs 0
      have htN : t < N := by
        by_contra hn
        exact step_ne ht (h0 t (by omega))
      have h1 : ∀ u, N ≤ u → (τ (0 + 1)).thr u = [] := fun u hu => by
        rw [step_oth ht (show u ≠ t by omega)]; exact h0 u hu
      have hsum : ∀ f : List (Act K) → Nat, ∑ u ∈ Finset.range N, f ((τ (0 + 1)).thr u) + f ((τ 0).thr t)
          = ∑ u ∈ Finset.range N, f ((τ 0).thr u) + f ((τ (0 + 1)).thr t) := by
        intro f
        rw [← Finset.sum_erase_add _ _ (Finset.mem_range.2 htN), ← Finset.sum_erase_add _ _ (Finset.mem_range.2 htN)]
        rw [Finset.sum_congr rfl (fun u hu => by rw [step_oth ht (Finset.ne_of_mem_erase hu)])]
        omega
      have hc := hsum calls
      have hz := hsum size
      rcases measure_step hb ht with hm | ⟨hm, hm'⟩
      · exact iha (∑ u ∈ Finset.range N, calls ((τ (0 + 1)).thr u)) (by omega) _ (fun n => τ (n + 1)) h1 (fun n => hs (n + 1))
          (Nat.le_refl _) (Nat.le_refl _)
      · exact ihb (∑ u ∈ Finset.range N, size ((τ (0 + 1)).thr u)) (by omega) (fun n => τ (n + 1)) h1 (fun n => hs (n + 1))
          (by omega) (Nat.le_refl _)

/-! ## Nothing changes the registry -/

def RO (s : St K) : Prop := s.w = .free ∧ ∀ t, ∀ p, Act.prog p ∈ s.thr t → p.readOnly

theorem ro_step {body : Nat → Prog K} (hb : ∀ c, (body c).readOnly) {t : Nat} {m : K → Option Nat} {s s' : St K}
    (hi : Inv m s) (h : RO s) (hs : Step body t s s') : RO s' := by
  have hc := others_free hi h.1 t
  have ht := h.2 t
  have key : ∀ (hw : s'.w = s.w), (∀ p, Act.prog p ∈ s'.thr t → p.readOnly) → RO s' := by
    intro hw hp
    refine ⟨hw.trans h.1, fun u p hm => ?_⟩
    by_cases hu : u = t
    · subst hu; exact hp p hm
    · rw [step_oth hs hu] at hm; exact h.2 u p hm
  cases hs with
  | announce o p rest h => exact (ht (.op o p) (by rw [h]; simp)).elim
  | acquire o rest h => rw [h] at hc; simp [cls] at hc
  | write o rest h => rw [h] at hc; simp [cls] at hc
  | unlock rest h => rw [h] at hc; simp [cls] at hc
  | rlock k b p rest h =>
    have h1 : p.readOnly := ht (.look k b p) (by rw [h]; simp)
    refine key rfl ?_
    rw [to_thr]
    intro q hq
    simp at hq
    rcases hq with rfl | hq
    · exact h1
    · exact ht q (by rw [h]; simp [hq])
  | read k b rest h =>
    refine key rfl ?_
    rw [to_thr]
    intro q hq
    rcases List.mem_append.1 hq with hq | hq
    · cases hk : s.map k <;> cases b <;> simp [after, hk] at hq
      subst hq; exact hb _
    · exact ht q (by rw [h]; simp [hq])
  | guard q p rest h =>
    have h1 : (Prog.guard q p).readOnly := ht _ (by rw [h]; simp)
    refine key rfl ?_
    rw [to_thr]
    intro q' hq
    simp at hq
    rcases hq with rfl | rfl | hq
    · exact h1.1
    · exact h1.2
    · exact ht q' (by rw [h]; simp [hq])
  | exited h => exact key rfl (by rw [to_thr]; simp)
  | runlock rest h => exact key rfl (by rw [to_thr]; intro q hq; exact ht q (by rw [h]; simp [hq]))
  | ret rest h => exact key rfl (by rw [to_thr]; intro q hq; exact ht q (by rw [h]; simp [hq]))
  | unneeded rest h => exact key rfl (by rw [to_thr]; intro q hq; exact ht q (by rw [h]; simp [hq]))
  | panic rest h => exact key rfl (by rw [to_thr]; intro q hq; exact ht q (by rw [h]; simp at hq; simp [hq]))
  | exit rest h => exact key rfl (by rw [to_thr]; intro q hq; exact ht q (by rw [h]; simp at hq; simp [hq]))
  | skip all p rest h => exact key rfl (by rw [to_thr]; intro q hq; exact ht q (by rw [h]; simp at hq; simp [hq]))
  | deferred all rest h => exact key rfl (by rw [to_thr]; intro q hq; exact ht q (by rw [h]; simpa using hq))
  | recover rest h => exact key rfl (by rw [to_thr]; intro q hq; exact ht q (by rw [h]; simp [hq]))
  | through rest h => exact key rfl (by rw [to_thr]; intro q hq; exact ht q (by rw [h]; simpa using hq))

theorem ro_run {body : Nat → Prog K} (hb : ∀ c, (body c).readOnly) {m : K → Option Nat} {prog : Nat → Option (Prog K)}
    (hp : ∀ t p, prog t = some p → p.readOnly) {s : St K} (h : Run body m prog s) : RO s := by
  induction h with
  | start =>
    refine ⟨rfl, fun t p hm => ?_⟩
    cases hq : prog t <;> simp [start, stack, hq] at hm
    subst hm; exact hp t _ hq
  | step hr hs ih => exact ro_step hb (inv_run hr) ih hs

end Verif.ConvPanic
