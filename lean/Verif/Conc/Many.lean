import Verif.Conc.Sect
/-!
# Programs that use several objects, each behind a `sync.RWMutex` of its own

`Verif.Conc.Client` has one object. Here the objects are a family, of any size and of different types. A goroutine is in at most one call at a time.
-/
set_option linter.unusedSectionVars false
namespace Verif.Conc.Many
open Verif.Conc Verif.Conc.RW Relation

variable {I : Type} [DecidableEq I] {σ A C R : I → Type} {P : Type}

/-- The objects with their locks and the calls in progress; the local states of the goroutines as they were at their last return. -/
structure MSt (σ A C R : I → Type) (P : Type) where
  obj : ∀ i, RW.St (σ i) (A i) (C i) (R i)
  loc : Nat → P

/-- A step: a goroutine outside calls the next method of its program, a call goes on, or it returns. -/
inductive MStep (g : ∀ i, Guarded (σ i) (A i) (C i) (R i)) (p : Client P (Σ i, C i) (Σ i, R i)) : MSt σ A C R P → MSt σ A C R P → Prop where
  | invoke {s : MSt σ A C R P} {t i c} : (∀ j, (s.obj j).pc t = .idle) → p.call (s.loc t) = some ⟨i, c⟩ →
      MStep g p s ⟨Function.update s.obj i { s.obj i with pc := setPc (s.obj i).pc t (.want (s.obj i).next c), next := (s.obj i).next + 1, hist := (s.obj i).hist ++ [.inv (s.obj i).next c] }, s.loc⟩
  | inner {s : MSt σ A C R P} {i o} : RW.Step (g i) (s.obj i) o → o.hist = (s.obj i).hist → MStep g p s ⟨Function.update s.obj i o, s.loc⟩
  | ret {s : MSt σ A C R P} {t i id c r} : (s.obj i).pc t = .out id c r →
      MStep g p s ⟨Function.update s.obj i { s.obj i with pc := setPc (s.obj i).pc t .idle, hist := (s.obj i).hist ++ [.ret id r] }, setLoc s.loc t (p.resume (s.loc t) ⟨i, r⟩)⟩

/-- States that the goroutines reach from the start, with the local states `l`. -/
inductive MReach (g : ∀ i, Guarded (σ i) (A i) (C i) (R i)) (p : Client P (Σ i, C i) (Σ i, R i)) (l : Nat → P) : MSt σ A C R P → Prop where
  | start : MReach g p l ⟨fun i => RW.start (g i), l⟩
  | step {s s'} : MReach g p l s → MStep g p s s' → MReach g p l s'

/-- The objects as one: a call is a call on one of them. -/
def family (o : ∀ i, Obj (σ i) (C i) (R i)) : Obj (∀ i, σ i) (Σ i, C i) (Σ i, R i) :=
  ⟨fun i => (o i).init, fun m c x m' => ∃ r, x = ⟨c.1, r⟩ ∧ (o c.1).step (m c.1) c.2 r (m' c.1) ∧ ∀ j, j ≠ c.1 → m' j = m j⟩

/-- The program as seen by object `i`. -/
def part (p : Client P (Σ i, C i) (Σ i, R i)) (i : I) : Client P (C i) (R i) := ⟨fun _ => none, fun q r => p.resume q ⟨i, r⟩⟩

/-- The local state a goroutine will have when the call that has had its effect returns. -/
def look (p : Client P (Σ i, C i) (Σ i, R i)) (s : MSt σ A C R P) (t : Nat) : P :=
  match p.call (s.loc t) with
  | none => s.loc t
  | some ⟨i, _⟩ => view (part p i) (s.loc t) ((s.obj i).pc t)

/-- What is left when the locks are forgotten. -/
def abs (p : Client P (Σ i, C i) (Σ i, R i)) (s : MSt σ A C R P) : (∀ i, σ i) × (Nat → P) := (fun i => (s.obj i).m, look p s)

/-- Every object by itself is used as in `Verif.Conc.RW`, and a goroutine is in the call its program makes. -/
structure Fits (g : ∀ i, Guarded (σ i) (A i) (C i) (R i)) (p : Client P (Σ i, C i) (Σ i, R i)) (s : MSt σ A C R P) : Prop where
  reach : ∀ i, RW.Reach (g i) (s.obj i)
  calls : ∀ i t c, ((s.obj i).pc t).call? = some c → p.call (s.loc t) = some ⟨i, c⟩

variable {g : ∀ i, Guarded (σ i) (A i) (C i) (R i)} {p : Client P (Σ i, C i) (Σ i, R i)} {s s' : MSt σ A C R P} {l : Nat → P}

theorem idle_call {A C R : Type} {q : RW.Pc A C R} (h : q.call? = none) : q = .idle := by cases q <;> first | rfl | cases h

/-- A goroutine in a call of one object is in no call of another. -/
theorem Fits.one (f : Fits g p s) {i j : I} {t : Nat} (h : (s.obj i).pc t ≠ .idle) (hj : j ≠ i) : (s.obj j).pc t = .idle := by
  cases e : ((s.obj i).pc t).call? with
  | none => exact absurd (idle_call e) h
  | some c =>
    refine idle_call ?_
    cases e' : ((s.obj j).pc t).call? with
    | none => rfl
    | some c' =>
      have h1 := f.calls i t c e
      rw [f.calls j t c' e'] at h1
      cases h1
      exact absurd rfl hj

theorem Fits.start (l : Nat → P) : Fits g p ⟨fun i => RW.start (g i), l⟩ := ⟨fun _ => .init, fun i t c h => by cases h⟩

theorem Fits.step (f : Fits g p s) (st : MStep g p s s') : Fits g p s' := by
  cases st with
  | @invoke t i c h1 h2 =>
    refine ⟨fun j => ?_, fun j u c' hc => ?_⟩
    · by_cases e : j = i
      · subst e; simp only [Function.update_self]; exact (f.reach j).step (.invoke (h1 j))
      · simp only [Function.update_of_ne e]; exact f.reach j
    · by_cases e : j = i
      · subst e
        simp only [Function.update_self] at hc
        by_cases eu : u = t
        · subst eu; simp only [setPc_same] at hc; cases hc; exact h2
        · rw [setPc_ne _ _ eu] at hc; exact f.calls j u c' hc
      · simp only [Function.update_of_ne e] at hc; exact f.calls j u c' hc
  | @inner i o h1 h2 =>
    refine ⟨fun j => ?_, fun j u c' hc => ?_⟩
    · by_cases e : j = i
      · subst e; simp only [Function.update_self]; exact (f.reach j).step h1
      · simp only [Function.update_of_ne e]; exact f.reach j
    · by_cases e : j = i
      · subst e
        simp only [Function.update_self] at hc
        rcases inner_cases (p := part p j) h1 h2 with ⟨t, q, e1, _, e3, _, _⟩ | ⟨t, id, c, acc, r, m', e1, _, rfl⟩
        · rw [e1] at hc
          by_cases eu : u = t
          · subst eu; rw [setPc_same, e3] at hc; exact f.calls j u c' hc
          · rw [setPc_ne _ _ eu] at hc; exact f.calls j u c' hc
        · by_cases eu : u = t
          · subst eu; simp only [setPc_same] at hc; cases hc; exact f.calls j u c' (by rw [e1]; rfl)
          · simp only [setPc_ne _ _ eu] at hc; exact f.calls j u c' hc
      · simp only [Function.update_of_ne e] at hc; exact f.calls j u c' hc
  | @ret t i id c r h1 =>
    refine ⟨fun j => ?_, fun j u c' hc => ?_⟩
    · by_cases e : j = i
      · subst e; simp only [Function.update_self]; exact (f.reach j).step (.ret h1)
      · simp only [Function.update_of_ne e]; exact f.reach j
    · by_cases e : j = i
      · subst e
        simp only [Function.update_self] at hc
        by_cases eu : u = t
        · subst eu; simp only [setPc_same] at hc; cases hc
        · rw [setPc_ne _ _ eu] at hc; simp only [setLoc_ne _ _ eu]; exact f.calls j u c' hc
      · simp only [Function.update_of_ne e] at hc
        by_cases eu : u = t
        · subst eu
          rw [f.one (i := i) (by rw [h1]; nofun) e] at hc; cases hc
        · simp only [setLoc_ne _ _ eu]; exact f.calls j u c' hc

theorem MReach.fits (h : MReach g p l s) : Fits g p s := by
  induction h with
  | start => exact .start l
  | step _ st ih => exact ih.step st

/-- Outside every call a goroutine is where its local state says. -/
theorem look_idle {t : Nat} (h : ∀ j, (s.obj j).pc t = .idle) : look p s t = s.loc t := by
  unfold look
  split
  · rfl
  · rw [h]; rfl

theorem look_call {t : Nat} {i : I} {c : C i} (h : p.call (s.loc t) = some ⟨i, c⟩) : look p s t = view (part p i) (s.loc t) ((s.obj i).pc t) := by
  unfold look; rw [h]

theorem look_congr {t : Nat} (hl : s'.loc t = s.loc t) (ho : ∀ i, (s'.obj i).pc t = (s.obj i).pc t) : look p s' t = look p s t := by
  unfold look
  rw [hl]
  split
  · rfl
  · rw [ho]

/-- The last access of a call is the whole call. -/
theorem Fits.access (ro : ∀ i, ReadsOnly (g i)) (f : Fits g p s) {i : I} {t id : Nat} {c : C i} {acc : A i} {r : R i} {m' : σ i}
    (e1 : (s.obj i).pc t = .body id c acc) (e2 : (g i).fin (s.obj i).m c acc r m') :
    AStep (family fun i => seqObj (g i)) p t (abs p s)
      (abs p ⟨Function.update s.obj i { s.obj i with pc := setPc (s.obj i).pc t (.held id c r), m := m' }, s.loc⟩) := by
  have hcall := f.calls i t c (by rw [e1]; rfl)
  obtain ⟨S, iv⟩ := (f.reach i).inv (ro i)
  have hp := iv.pcs t
  rw [e1] at hp
  have hv : look p s t = s.loc t := by rw [look_call hcall, e1]; rfl
  have h3 := AStep.mk (o := family fun i => seqObj (g i)) (p := p) (t := t) (m := fun j => (s.obj j).m) (l := look p s) (c := ⟨i, c⟩) (r := ⟨i, r⟩)
    (m' := Function.update (fun j => (s.obj j).m) i m') (by rw [hv]; exact hcall)
    ⟨r, rfl, by simp only [Function.update_self]; exact ⟨acc, hp.2.2, e2⟩, fun j hj => Function.update_of_ne hj _ _⟩
  have e : abs p (⟨Function.update s.obj i { s.obj i with pc := setPc (s.obj i).pc t (.held id c r), m := m' }, s.loc⟩ : MSt σ A C R P) =
      (Function.update (fun j => (s.obj j).m) i m', setLoc (look p s) t (p.resume (look p s t) ⟨i, r⟩)) := by
    refine Prod.ext (funext fun j => ?_) (funext fun u => ?_)
    · by_cases e : j = i
      · subst e; simp [abs]
      · simp [abs, Function.update_of_ne e]
    · by_cases eu : u = t
      · subst eu
        simp only [abs, setLoc_same]
        rw [look_call (s := ⟨Function.update s.obj i _, s.loc⟩) (c := c) hcall, hv]
        simp only [Function.update_self, setPc_same]
        rfl
      · simp only [abs, setLoc_ne _ _ eu]
        refine look_congr rfl fun j => ?_
        by_cases e : j = i
        · subst e; simp only [Function.update_self]; exact setPc_ne _ _ eu
        · simp only [Function.update_of_ne e]
  rw [e]
  exact h3

/-- Steps are whole calls, or nothing. -/
theorem Fits.abs_step (ro : ∀ i, ReadsOnly (g i)) (f : Fits g p s) (st : MStep g p s s') :
    abs p s' = abs p s ∨ ∃ t, AStep (family fun i => seqObj (g i)) p t (abs p s) (abs p s') := by
  have f' := f.step st
  cases st with
  | @invoke t i c h1 h2 =>
    refine .inl (Prod.ext (funext fun j => ?_) (funext fun u => ?_))
    · by_cases e : j = i
      · subst e; simp [abs]
      · simp [abs, Function.update_of_ne e]
    · by_cases eu : u = t
      · subst eu
        simp only [abs]
        rw [look_idle h1]
        refine (look_call (s := ⟨Function.update s.obj i _, s.loc⟩) (c := c) h2).trans ?_
        simp [view]
      · refine look_congr rfl fun j => ?_
        by_cases e : j = i
        · subst e; simp only [Function.update_self]; exact setPc_ne _ _ eu
        · simp only [Function.update_of_ne e]
  | @inner i o h1 h2 =>
    rcases inner_cases (p := part p i) h1 h2 with ⟨t, q, e1, e2, e3, e4, e5⟩ | ⟨t, id, c, acc, r, m', e1, e2, rfl⟩
    · refine .inl (Prod.ext (funext fun j => ?_) (funext fun u => ?_))
      · by_cases e : j = i
        · subst e; simp [abs, e2]
        · simp [abs, Function.update_of_ne e]
      · by_cases eu : u = t
        · subst eu
          cases hc : ((s.obj i).pc u).call? with
          | none => exact absurd (idle_call hc) e4
          | some c =>
            have hcall := f.calls i u c hc
            simp only [abs]
            rw [look_call hcall, look_call (s := ⟨Function.update s.obj i o, s.loc⟩) (c := c) hcall]
            simp only [Function.update_self, e1, setPc_same]
            exact e5 _
        · refine look_congr rfl fun j => ?_
          by_cases e : j = i
          · subst e; simp only [Function.update_self, e1]; exact setPc_ne _ _ eu
          · simp only [Function.update_of_ne e]
    · exact .inr ⟨t, f.access ro e1 e2⟩
  | @ret t i id c r h1 =>
    refine .inl (Prod.ext (funext fun j => ?_) (funext fun u => ?_))
    · by_cases e : j = i
      · subst e; simp [abs]
      · simp [abs, Function.update_of_ne e]
    · by_cases eu : u = t
      · subst eu
        have hcall := f.calls i u c (by rw [h1]; rfl)
        simp only [abs]
        rw [look_call hcall, h1, look_idle (p := p) (t := u)]
        · simp [view, part]
        · intro j
          by_cases e : j = i
          · subst e; simp only [Function.update_self, setPc_same]
          · simp only [Function.update_of_ne e]
            exact f.one (i := i) (by rw [h1]; nofun) e
      · refine look_congr (setLoc_ne _ _ eu) fun j => ?_
        by_cases e : j = i
        · subst e; simp only [Function.update_self]; exact setPc_ne _ _ eu
        · simp only [Function.update_of_ne e]

/-- **Calls are made at once**, on all objects. -/
theorem atomic (ro : ∀ i, ReadsOnly (g i)) (h : MReach g p l s) : AReach (family fun i => seqObj (g i)) p l (abs p s) := by
  induction h with
  | start =>
    have e : abs p (⟨fun i => RW.start (g i), l⟩ : MSt σ A C R P) = ((family fun i => seqObj (g i)).init, l) :=
      Prod.ext rfl (funext fun t => look_idle fun j => rfl)
    rw [e]; exact .start
  | step hr st ih =>
    rcases hr.fits.abs_step ro st with e | ⟨t, h⟩
    · rw [e]; exact ih
    · exact ih.step h

/-- **No deadlock.** -/
theorem stuck (ro : ∀ i, ReadsOnly (g i)) (lv : ∀ i, Live (g i)) (h : MReach g p l s) (hn : ¬ ∃ s', MStep g p s s') (t : Nat) :
    (∀ i, (s.obj i).pc t = .idle) ∧ p.call (s.loc t) = none := by
  have hidle : ∀ i t, (s.obj i).pc t = .idle := by
    intro i t
    by_contra ht
    obtain ⟨o, st, hx⟩ := no_deadlock (ro i) (lv i) (h.fits.reach i) ht
    cases st with
    | invoke h1 => simp at hx
    | ret h1 => exact hn ⟨_, .ret h1⟩
    | rlock h1 h2 h3 => exact hn ⟨_, .inner (.rlock h1 h2 h3) rfl⟩
    | lock h1 h2 h3 h4 => exact hn ⟨_, .inner (.lock h1 h2 h3 h4) rfl⟩
    | iter h1 h2 => exact hn ⟨_, .inner (.iter h1 h2) rfl⟩
    | access h1 h2 => exact hn ⟨_, .inner (.access h1 h2) rfl⟩
    | runlock h1 h2 => exact hn ⟨_, .inner (.runlock h1 h2) rfl⟩
    | unlock h1 h2 => exact hn ⟨_, .inner (.unlock h1 h2) rfl⟩
  refine ⟨fun i => hidle i t, ?_⟩
  cases hc : p.call (s.loc t) with
  | none => rfl
  | some c => exact absurd ⟨_, .invoke (fun j => hidle j t) hc⟩ hn

/-! ## An end -/

/-- How far a goroutine is from its next effect. -/
def far (μ : ∀ i, σ i → C i → A i → Nat) (p : Client P (Σ i, C i) (Σ i, R i)) (s : MSt σ A C R P) (t : Nat) : Nat × Nat :=
  match p.call (s.loc t) with
  | none => (3, 0)
  | some ⟨i, _⟩ => (rank ((s.obj i).pc t), left (μ i) (s.obj i).m ((s.obj i).pc t))

theorem far_call {μ : ∀ i, σ i → C i → A i → Nat} {t : Nat} {i : I} {c : C i} (h : p.call (s.loc t) = some ⟨i, c⟩) :
    far μ p s t = (rank ((s.obj i).pc t), left (μ i) (s.obj i).m ((s.obj i).pc t)) := by unfold far; rw [h]

theorem far_congr {μ : ∀ i, σ i → C i → A i → Nat} {t : Nat} (hl : s'.loc t = s.loc t) (ho : ∀ i, (s'.obj i).pc t = (s.obj i).pc t)
    (hm : ∀ i, (s'.obj i).m = (s.obj i).m) : far μ p s' t = far μ p s t := by
  unfold far
  rw [hl]
  split
  · rfl
  · rw [ho, hm]

theorem far_idle {μ : ∀ i, σ i → C i → A i → Nat} {t : Nat} (h : ∀ j, (s.obj j).pc t = .idle) : far μ p s t = (3, 0) := by
  unfold far
  split
  · rfl
  · rw [h]; rfl

/-- A step that is not an effect brings one goroutine closer to its next. -/
theorem Fits.closer (ro : ∀ i, ReadsOnly (g i)) {μ : ∀ i, σ i → C i → A i → Nat} (hμ : ∀ i, ShrinksFrom (g i) (μ i)) (f : Fits g p s) (st : MStep g p s s') :
    (∃ t, AStep (family fun i => seqObj (g i)) p t (abs p s) (abs p s')) ∨
      abs p s' = abs p s ∧ ∃ t, p.call (s.loc t) ≠ none ∧ Prod.Lex (· < ·) (· < ·) (far μ p s' t) (far μ p s t) ∧ ∀ u, u ≠ t → far μ p s' u = far μ p s u := by
  rcases f.abs_step ro st with e | h
  swap
  · exact .inl h
  have move : ∀ {i t c q o}, p.call (s.loc t) = some ⟨i, c⟩ → o.pc = setPc (s.obj i).pc t q → o.m = (s.obj i).m →
      Prod.Lex (· < ·) (· < ·) (rank q, left (μ i) (s.obj i).m q) (rank ((s.obj i).pc t), left (μ i) (s.obj i).m ((s.obj i).pc t)) →
      ∃ t, p.call (s.loc t) ≠ none ∧ Prod.Lex (· < ·) (· < ·) (far μ p ⟨Function.update s.obj i o, s.loc⟩ t) (far μ p s t) ∧
        ∀ u, u ≠ t → far μ p ⟨Function.update s.obj i o, s.loc⟩ u = far μ p s u := by
    intro i t c q o hc hpc hm hlex
    refine ⟨t, by rw [hc]; nofun, ?_, fun u hu => far_congr rfl (fun j => ?_) (fun j => ?_)⟩
    · rw [far_call hc, far_call (s := ⟨Function.update s.obj i o, s.loc⟩) (c := c) hc]
      simp only [Function.update_self, hpc, hm, setPc_same]
      exact hlex
    · by_cases e : j = i
      · subst e; simp only [Function.update_self, hpc]; exact setPc_ne _ _ hu
      · simp only [Function.update_of_ne e]
    · by_cases e : j = i
      · subst e; simp only [Function.update_self, hm]
      · simp only [Function.update_of_ne e]
  cases st with
  | @invoke t i c h1 h2 => exact .inr ⟨e, move h2 rfl rfl (by rw [h1 i]; exact .left _ _ (Nat.lt_succ_self 2))⟩
  | @inner i o st hh =>
    cases st with
    | invoke h1 => simp at hh
    | ret h1 => simp at hh
    | @rlock t id c h1 => exact .inr ⟨e, move (f.calls i t c (by rw [h1]; rfl)) rfl rfl (by rw [h1]; exact .left _ _ (Nat.lt_succ_self 1))⟩
    | @lock t id c h1 => exact .inr ⟨e, move (f.calls i t c (by rw [h1]; rfl)) rfl rfl (by rw [h1]; exact .left _ _ (Nat.lt_succ_self 1))⟩
    | @runlock t id c r h1 => exact .inr ⟨e, move (f.calls i t c (by rw [h1]; rfl)) rfl rfl (by rw [h1]; exact .left _ _ (Nat.lt_succ_self 4))⟩
    | @unlock t id c r h1 => exact .inr ⟨e, move (f.calls i t c (by rw [h1]; rfl)) rfl rfl (by rw [h1]; exact .left _ _ (Nat.lt_succ_self 4))⟩
    | @iter t id c acc acc' h1 h2 =>
      obtain ⟨S, iv⟩ := (f.reach i).inv (ro i)
      have hp := iv.pcs t
      rw [h1] at hp
      exact .inr ⟨e, move (f.calls i t c (by rw [h1]; rfl)) rfl rfl (by rw [h1]; exact .right _ (hμ i _ _ _ _ hp.2.2 h2))⟩
    | access h1 h2 => exact .inl ⟨_, f.access ro h1 h2⟩
  | @ret t i id c r h1 =>
    have hc := f.calls i t c (by rw [h1]; rfl)
    refine .inr ⟨e, t, by rw [hc]; nofun, ?_, fun u hu => far_congr (setLoc_ne _ _ hu) (fun j => ?_) (fun j => ?_)⟩
    · rw [far_call hc, far_idle, h1]
      · exact .left _ _ (Nat.lt_succ_self 3)
      · intro j
        by_cases e : j = i
        · subst e; simp only [Function.update_self, setPc_same]
        · simp only [Function.update_of_ne e]
          exact f.one (i := i) (by rw [h1]; nofun) e
    · by_cases e : j = i
      · subst e; simp only [Function.update_self]; exact setPc_ne _ _ hu
      · simp only [Function.update_of_ne e]
    · by_cases e : j = i
      · subst e; simp only [Function.update_self]
      · simp only [Function.update_of_ne e]

/-- A goroutine without a program never does anything. -/
theorem MReach.outside (h : MReach g p l s) {t : Nat} (ht : p.call (l t) = none) : s.loc t = l t := by
  induction h with
  | start => rfl
  | @step s s' hr st ih =>
    cases st with
    | invoke _ _ => exact ih
    | inner _ _ => exact ih
    | @ret u i id c r h1 =>
      have e : t ≠ u := by
        rintro rfl
        have := hr.fits.calls i t c (by rw [h1]; rfl)
        rw [ih, ht] at this; cases this
      simp only [setLoc_ne _ _ e]; exact ih

/-- **An end.** Programs of finitely many goroutines that end with whole calls end with the locks. -/
theorem ends (ro : ∀ i, ReadsOnly (g i)) {μ : ∀ i, σ i → C i → A i → Nat} (hμ : ∀ i, ShrinksFrom (g i) (μ i)) {N : Nat} (hN : ∀ t, N ≤ t → p.call (l t) = none)
    (h : MReach g p l s) (ha : Acc (fun b a => ∃ t, AStep (family fun i => seqObj (g i)) p t a b) (abs p s)) : Acc (fun s' s => MStep g p s s') s := by
  generalize hx : abs p s = x at ha
  induction ha generalizing s with
  | intro x _ ih =>
    have wf : WellFounded (Prod.Lex (· < · : Nat → Nat → Prop) (· < · : Nat → Nat → Prop)) :=
      (Prod.lex ⟨_, Nat.lt_wfRel.wf⟩ ⟨_, Nat.lt_wfRel.wf⟩).wf
    have key := acc_prod (R := fun _ => Prod.Lex (· < · : Nat → Nat → Prop) (· < · : Nat → Nat → Prop)) N (far μ p s) fun t _ => wf.apply _
    generalize hy : far μ p s = y at key
    induction key generalizing s with
    | intro y _ ih2 =>
      subst hy
      refine ⟨_, fun s' st => ?_⟩
      rcases h.fits.closer ro hμ st with h1 | ⟨e, t, ht, h2, h3⟩
      · exact ih _ (by rw [← hx]; exact h1) (h.step st) rfl
      · refine ih2 _ ⟨t, ?_, h2, h3⟩ (h.step st) (e.trans hx) rfl
        by_contra hc
        have h4 := hN t (by omega)
        rw [h.outside h4] at ht
        exact ht h4

/-- Families of objects that simulate others. -/
theorem family_sim {τ : I → Type} {o : ∀ i, Obj (σ i) (C i) (R i)} {o' : ∀ i, Obj (τ i) (C i) (R i)} (r : ∀ i, σ i → τ i → Prop)
    (hs : ∀ i s s' c x u, r i s u → (o i).step s c x s' → ∃ u', (o' i).step u c x u' ∧ r i s' u')
    (m m' : ∀ i, σ i) (c : Σ i, C i) (x : Σ i, R i) (u : ∀ i, τ i) (hm : ∀ i, r i (m i) (u i)) (st : (family o).step m c x m') :
    ∃ u', (family o').step u c x u' ∧ ∀ i, r i (m' i) (u' i) := by
  obtain ⟨i, c⟩ := c
  obtain ⟨y, rfl, h1, h2⟩ := st
  obtain ⟨v, h3, h4⟩ := hs i _ _ _ _ _ (hm i) h1
  refine ⟨Function.update u i v, ⟨y, rfl, by simpa using h3, fun j hj => Function.update_of_ne hj _ _⟩, fun j => ?_⟩
  by_cases e : j = i
  · subst e; simpa using h4
  · rw [Function.update_of_ne e, h2 j e]; exact hm j

end Verif.Conc.Many
