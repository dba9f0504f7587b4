import Verif.Conc.RWLocal
/-!
# Programs that use an object behind a `sync.RWMutex`

Every goroutine runs a program: its local state says which method it calls next, and the result of the call gives the next local state. With the
locks of `Verif.Conc.RW` a call is many steps. Without them a call is one step (`AStep`). The two cannot be told apart.
-/
set_option linter.unusedSectionVars false
namespace Verif.Conc.RW
open Verif.Conc Relation

/-- A program: the next call, `none` at the end, and what the result does to the local state. -/
structure Client (P C R : Type) where
  call : P → Option C
  resume : P → R → P

variable {σ A C R P : Type}

/-- The local state of one goroutine changes. -/
def setLoc (f : Nat → P) (t : Nat) (p : P) : Nat → P := fun u => if u = t then p else f u

/-- The object with its lock and the calls in progress; the local states of the goroutines as they were at their last return. -/
structure CSt (σ A C R P : Type) where
  obj : St σ A C R
  loc : Nat → P

/-- A step: a goroutine outside calls the next method of its program, a call goes on, or it returns. -/
inductive CStep (g : Guarded σ A C R) (p : Client P C R) : CSt σ A C R P → CSt σ A C R P → Prop where
  | invoke {s : CSt σ A C R P} {t c} : s.obj.pc t = .idle → p.call (s.loc t) = some c →
      CStep g p s ⟨{ s.obj with pc := setPc s.obj.pc t (.want s.obj.next c), next := s.obj.next + 1, hist := s.obj.hist ++ [.inv s.obj.next c] }, s.loc⟩
  | inner {s : CSt σ A C R P} {o} : Step g s.obj o → o.hist = s.obj.hist → CStep g p s ⟨o, s.loc⟩
  | ret {s : CSt σ A C R P} {t id c r} : s.obj.pc t = .out id c r →
      CStep g p s ⟨{ s.obj with pc := setPc s.obj.pc t .idle, hist := s.obj.hist ++ [.ret id r] }, setLoc s.loc t (p.resume (s.loc t) r)⟩

/-- States that the goroutines reach from the start, with the local states `l`. -/
inductive CReach (g : Guarded σ A C R) (p : Client P C R) (l : Nat → P) : CSt σ A C R P → Prop where
  | start : CReach g p l ⟨start g, l⟩
  | step {s s'} : CReach g p l s → CStep g p s s' → CReach g p l s'

/-- A whole call of goroutine `t`, at once. -/
inductive AStep (o : Obj σ C R) (p : Client P C R) (t : Nat) : σ × (Nat → P) → σ × (Nat → P) → Prop where
  | mk {m l c r m'} : p.call (l t) = some c → o.step m c r m' → AStep o p t (m, l) (m', setLoc l t (p.resume (l t) r))

inductive AReach (o : Obj σ C R) (p : Client P C R) (l : Nat → P) : σ × (Nat → P) → Prop where
  | start : AReach o p l (o.init, l)
  | step {s s' t} : AReach o p l s → AStep o p t s s' → AReach o p l s'

/-- The local state a goroutine will have when the call that has had its effect returns. -/
def view (p : Client P C R) (q : P) : Pc A C R → P
  | .held _ _ r => p.resume q r
  | .out _ _ r => p.resume q r
  | _ => q

/-- What is left when the locks are forgotten. -/
def abs (p : Client P C R) (s : CSt σ A C R P) : σ × (Nat → P) := (s.obj.m, fun t => view p (s.loc t) (s.obj.pc t))

/-- The call a goroutine is in. -/
def Pc.call? : Pc A C R → Option C
  | .idle => none
  | .want _ c => some c
  | .body _ c _ => some c
  | .held _ c _ => some c
  | .out _ c _ => some c

variable {g : Guarded σ A C R} {p : Client P C R}

@[simp] theorem setLoc_same (f : Nat → P) (t : Nat) (q : P) : setLoc f t q t = q := if_pos rfl
theorem setLoc_ne (f : Nat → P) {t u : Nat} (q : P) (h : u ≠ t) : setLoc f t q u = f u := if_neg h

theorem view_setPc (p : Client P C R) (l : Nat → P) (pc : Nat → Pc A C R) (t : Nat) (q : Pc A C R) :
    (fun u => view p (l u) (setPc pc t q u)) = setLoc (fun u => view p (l u) (pc u)) t (view p (l t) q) := by
  funext u
  by_cases e : u = t
  · subst e; simp
  · rw [setPc_ne _ _ e, setLoc_ne _ _ e]

theorem setLoc_self (f : Nat → P) (t : Nat) (q : P) (h : q = f t) : setLoc f t q = f := by
  funext u
  by_cases e : u = t
  · subst e; simp [h]
  · exact setLoc_ne _ _ e

/-- A step inside a call: which goroutine, and what it does. -/
theorem inner_cases {s o : St σ A C R} (st : Step g s o) (hh : o.hist = s.hist) :
    (∃ t q, o.pc = setPc s.pc t q ∧ o.m = s.m ∧ q.call? = (s.pc t).call? ∧ s.pc t ≠ .idle ∧ ∀ l : P, view p l q = view p l (s.pc t)) ∨
      ∃ t id c acc r m', s.pc t = .body id c acc ∧ g.fin s.m c acc r m' ∧ o = { s with pc := setPc s.pc t (.held id c r), m := m' } := by
  cases st with
  | invoke h => simp at hh
  | @rlock t id c h => exact .inl ⟨t, _, rfl, rfl, by rw [h]; rfl, by rw [h]; nofun, fun l => by rw [h]; rfl⟩
  | @lock t id c h => exact .inl ⟨t, _, rfl, rfl, by rw [h]; rfl, by rw [h]; nofun, fun l => by rw [h]; rfl⟩
  | @iter t id c acc acc' h => exact .inl ⟨t, _, rfl, rfl, by rw [h]; rfl, by rw [h]; nofun, fun l => by rw [h]; rfl⟩
  | @access t id c acc r m' h hf => exact .inr ⟨t, id, c, acc, r, m', h, hf, rfl⟩
  | @runlock t id c r h => exact .inl ⟨t, _, rfl, rfl, by rw [h]; rfl, by rw [h]; nofun, fun l => by rw [h]; rfl⟩
  | @unlock t id c r h => exact .inl ⟨t, _, rfl, rfl, by rw [h]; rfl, by rw [h]; nofun, fun l => by rw [h]; rfl⟩
  | ret h => simp at hh

/-- What goroutines that run programs reach is reached by goroutines that call methods. -/
theorem CReach.reach {l : Nat → P} {s : CSt σ A C R P} (h : CReach g p l s) : Reach g s.obj := by
  induction h with
  | start => exact .init
  | step _ hs ih =>
    cases hs with
    | invoke h _ => exact ih.step (.invoke h)
    | inner st _ => exact ih.step st
    | ret h => exact ih.step (.ret h)

/-- A moment of goroutines that use the object by their programs: the call a goroutine is in is that of its program. -/
structure Fits (g : Guarded σ A C R) (p : Client P C R) (s : CSt σ A C R P) : Prop where
  reach : Reach g s.obj
  calls : ∀ {t : Nat} {c : C}, (s.obj.pc t).call? = some c → p.call (s.loc t) = some c

theorem Fits.start (l : Nat → P) : Fits g p ⟨RW.start g, l⟩ := ⟨.init, fun h => by cases h⟩

theorem Fits.step {s s' : CSt σ A C R P} (i : Fits g p s) (hs : CStep g p s s') : Fits g p s' := by
  obtain ⟨hr, ih⟩ := i
  refine ⟨?_, ?_⟩
  · cases hs with
    | invoke h _ => exact hr.step (.invoke h)
    | inner st _ => exact hr.step st
    | ret h => exact hr.step (.ret h)
  · intro t c hc
    cases hs with
    | @invoke u c' h1 h2 =>
      by_cases e : t = u
      · subst e; simp [Pc.call?] at hc; rw [← hc]; exact h2
      · simp only [setPc_ne _ _ e] at hc; exact ih hc
    | @inner o st hh =>
      rcases inner_cases (p := p) st hh with ⟨u, q, h1, _, h3, _, _⟩ | ⟨u, id, c', acc, r, m', h1, _, rfl⟩
      · simp only [h1] at hc
        by_cases e : t = u
        · subst e; rw [setPc_same, h3] at hc; exact ih hc
        · rw [setPc_ne _ _ e] at hc; exact ih hc
      · by_cases e : t = u
        · subst e; simp [Pc.call?] at hc; subst hc; exact ih (by rw [h1]; rfl)
        · simp only [setPc_ne _ _ e] at hc; exact ih hc
    | @ret u id c' r h1 =>
      by_cases e : t = u
      · subst e; simp [Pc.call?] at hc
      · simp only [setPc_ne _ _ e] at hc
        simp only [setLoc_ne _ _ e]
        exact ih hc

theorem CReach.fits {l : Nat → P} {s : CSt σ A C R P} (h : CReach g p l s) : Fits g p s := by
  induction h with
  | start => exact .start l
  | step _ hs ih => exact ih.step hs

/-- The call a goroutine is in is that of its program. -/
theorem CReach.calls {l : Nat → P} {s : CSt σ A C R P} (h : CReach g p l s) {t : Nat} {c : C} (hc : (s.obj.pc t).call? = some c) :
    p.call (s.loc t) = some c := h.fits.calls hc

/-- A step with locks is a whole call at once, or nothing. -/
theorem Fits.abs_step (ro : ReadsOnly g) {s s' : CSt σ A C R P} (h : Fits g p s) (hs : CStep g p s s') :
    abs p s' = abs p s ∨ ∃ t, AStep (seqObj g) p t (abs p s) (abs p s') := by
  cases hs with
  | @invoke t c h1 h2 =>
    left
    unfold abs
    simp only [view_setPc]
    rw [setLoc_self]
    rw [h1]; rfl
  | @inner o st hh =>
    rcases inner_cases (p := p) st hh with ⟨u, q, h1, h2, _, _, h5⟩ | ⟨t, id, c, acc, r, m', h1, h2, rfl⟩
    · left
      unfold abs
      simp only [h1, h2, view_setPc]
      rw [setLoc_self _ _ _ (h5 _)]
    · right
      obtain ⟨S, i⟩ := h.reach.inv ro
      have hp := i.pcs t
      rw [h1] at hp
      have hc := h.calls (t := t) (c := c) (by rw [h1]; rfl)
      refine ⟨t, ?_⟩
      unfold abs
      simp only [view_setPc]
      have hv : view p (s.loc t) (s.obj.pc t) = s.loc t := by rw [h1]; rfl
      have := AStep.mk (o := seqObj g) (p := p) (t := t) (m := s.obj.m) (l := fun u => view p (s.loc u) (s.obj.pc u)) (c := c) (r := r) (m' := m')
        (by rw [hv]; exact hc) ⟨acc, hp.2.2, h2⟩
      rw [hv] at this
      exact this
  | @ret t id c r h1 =>
    left
    unfold abs
    simp only
    congr 1
    funext u
    by_cases e : u = t
    · subst e; simp [view, h1]
    · rw [setPc_ne _ _ e, setLoc_ne _ _ e]

theorem abs_step (ro : ReadsOnly g) {l : Nat → P} {s s' : CSt σ A C R P} (h : CReach g p l s) (hs : CStep g p s s') :
    abs p s' = abs p s ∨ ∃ t, AStep (seqObj g) p t (abs p s) (abs p s') := h.fits.abs_step ro hs

/-- **With locks as without.** What a program reaches is, with the locks forgotten, reached by whole calls. -/
theorem atomic (ro : ReadsOnly g) {l : Nat → P} {s : CSt σ A C R P} (h : CReach g p l s) : AReach (seqObj g) p l (abs p s) := by
  induction h with
  | start => exact AReach.start (o := seqObj g)
  | step hr hs ih =>
    rcases abs_step ro hr hs with e | ⟨t, st⟩
    · rw [e]; exact ih
    · exact ih.step st

theorem setPc_setPc (f : Nat → Pc A C R) (t : Nat) (q q' : Pc A C R) : setPc (setPc f t q) t q' = setPc f t q' := by
  funext u; unfold setPc; split <;> rfl

/-- **Without locks as with.** Whole calls can be made with the locks, one after the other. -/
theorem sequential {l : Nat → P} {a : σ × (Nat → P)} (h : AReach (seqObj g) p l a) :
    ∃ s, CReach g p l s ∧ s.obj.m = a.1 ∧ s.loc = a.2 ∧ (∀ t, s.obj.pc t = .idle) ∧ s.obj.writer = none ∧ s.obj.readers = [] := by
  induction h with
  | start => exact ⟨_, .start, rfl, rfl, fun _ => rfl, rfl, rfl⟩
  | @step a a' t _ hs ih =>
    obtain ⟨s, hr, hm, hl, hi, hw, hrd⟩ := ih
    cases hs with
    | @mk m l' c r m' hc hst =>
      obtain ⟨acc, hit, hf⟩ := hst
      simp only at hm hl
      subst hm hl
      have h1 := hr.step (.invoke (hi t) hc)
      have hback : setPc (setPc s.obj.pc t (.want s.obj.next c)) t .idle = s.obj.pc := by
        rw [setPc_setPc]; funext u; by_cases e : u = t
        · subst e; rw [setPc_same, hi]
        · exact setPc_ne _ _ e
      -- the rounds of the method
      have iters : ∀ (o : St σ A C R) id acc, CReach g p l ⟨o, s.loc⟩ → o.pc t = .body id c g.start → ReflTransGen (g.iter o.m c) g.start acc →
          CReach g p l ⟨{ o with pc := setPc o.pc t (.body id c acc) }, s.loc⟩ := by
        intro o id acc ho hp hit
        induction hit with
        | refl =>
          have : setPc o.pc t (.body id c g.start) = o.pc := by
            funext u; by_cases e : u = t
            · subst e; rw [setPc_same, hp]
            · exact setPc_ne _ _ e
          rw [this]; exact ho
        | @tail a b _ hab ih =>
          have h2 := ih.step (.inner (.iter (t := t) (id := id) (c := c) (acc := a) (acc' := b) (setPc_same _ _ _) hab) rfl)
          simp only [setPc_setPc] at h2
          exact h2
      cases hwc : g.writes c with
      | false =>
        have h2 := h1.step (.inner (.rlock (t := t) (id := s.obj.next) (c := c) (setPc_same _ _ _) hwc hw) rfl)
        have h3 := iters _ s.obj.next acc h2 (setPc_same _ _ _) hit
        have h4 := h3.step (.inner (.access (t := t) (id := s.obj.next) (c := c) (setPc_same _ _ _) hf) rfl)
        have h5 := h4.step (.inner (.runlock (t := t) (id := s.obj.next) (c := c) (setPc_same _ _ _) hwc) rfl)
        have h6 := h5.step (.ret (t := t) (setPc_same _ _ _))
        simp only [setPc_setPc] at h6
        rw [setPc_setPc] at hback
        refine ⟨_, h6, rfl, rfl, fun u => ?_, hw, ?_⟩
        · simp only [hback]; exact hi u
        · simp [hrd]
      | true =>
        have h2 := h1.step (.inner (.lock (t := t) (id := s.obj.next) (c := c) (setPc_same _ _ _) hwc hw hrd) rfl)
        have h3 := iters _ s.obj.next acc h2 (setPc_same _ _ _) hit
        have h4 := h3.step (.inner (.access (t := t) (id := s.obj.next) (c := c) (setPc_same _ _ _) hf) rfl)
        have h5 := h4.step (.inner (.unlock (t := t) (id := s.obj.next) (c := c) (setPc_same _ _ _) hwc) rfl)
        have h6 := h5.step (.ret (t := t) (setPc_same _ _ _))
        simp only [setPc_setPc] at h6
        rw [setPc_setPc] at hback
        refine ⟨_, h6, rfl, rfl, fun u => ?_, rfl, hrd⟩
        simp only [hback]; exact hi u

/-- **No deadlock.** Goroutines that cannot go on are all outside, at the end of their programs. -/
theorem Fits.stuck (ro : ReadsOnly g) (lv : Live g) {s : CSt σ A C R P} (h : Fits g p s) (hn : ¬ ∃ s', CStep g p s s') :
    ∀ t, s.obj.pc t = .idle ∧ p.call (s.loc t) = none := by
  have hidle : ∀ t, s.obj.pc t = .idle := by
    intro t
    by_contra ht
    obtain ⟨o, st, hx⟩ := no_deadlock ro lv h.reach ht
    cases st with
    | invoke h1 => simp at hx
    | ret h1 => exact hn ⟨_, .ret h1⟩
    | rlock h1 h2 h3 => exact hn ⟨_, .inner (.rlock h1 h2 h3) rfl⟩
    | lock h1 h2 h3 h4 => exact hn ⟨_, .inner (.lock h1 h2 h3 h4) rfl⟩
    | iter h1 h2 => exact hn ⟨_, .inner (.iter h1 h2) rfl⟩
    | access h1 h2 => exact hn ⟨_, .inner (.access h1 h2) rfl⟩
    | runlock h1 h2 => exact hn ⟨_, .inner (.runlock h1 h2) rfl⟩
    | unlock h1 h2 => exact hn ⟨_, .inner (.unlock h1 h2) rfl⟩
  refine fun t => ⟨hidle t, ?_⟩
  cases hc : p.call (s.loc t) with
  | none => rfl
  | some c => exact absurd ⟨_, .invoke (hidle t) hc⟩ hn

theorem stuck (ro : ReadsOnly g) (lv : Live g) {l : Nat → P} {s : CSt σ A C R P} (h : CReach g p l s) (hn : ¬ ∃ s', CStep g p s s') :
    ∀ t, s.obj.pc t = .idle ∧ p.call (s.loc t) = none := h.fits.stuck ro lv hn

/-! ## An end -/

/-- Stages left until a call has had its effect, for the next call when it has. -/
def rank : Pc A C R → Nat
  | .held .. => 5
  | .out .. => 4
  | .idle => 3
  | .want .. => 2
  | .body .. => 1

/-- Goroutines without a program never do anything. -/
theorem CReach.outside {l : Nat → P} {s : CSt σ A C R P} (h : CReach g p l s) {t : Nat} (ht : p.call (l t) = none) :
    s.obj.pc t = .idle ∧ s.loc t = l t := by
  have key : s.loc t = l t ∧ s.obj.pc t = .idle := by
    induction h with
    | start => exact ⟨rfl, rfl⟩
    | @step s s' hr hs ih =>
      obtain ⟨h1, h2⟩ := ih
      cases hs with
      | @invoke u c h3 h4 =>
        have e : t ≠ u := fun e => by subst e; rw [h1, ht] at h4; cases h4
        exact ⟨h1, by simp only [setPc_ne _ _ e]; exact h2⟩
      | @inner o st hh =>
        rcases inner_cases (p := p) st hh with ⟨u, q, h3, _, _, h4, _⟩ | ⟨u, id, c', acc, r, m', h3, _, rfl⟩
        · have e : t ≠ u := fun e => by subst e; exact h4 h2
          exact ⟨h1, by simp only [h3, setPc_ne _ _ e]; exact h2⟩
        · have e : t ≠ u := fun e => by subst e; rw [h2] at h3; cases h3
          exact ⟨h1, by simp only [setPc_ne _ _ e]; exact h2⟩
      | @ret u id c r h3 =>
        have e : t ≠ u := fun e => by subst e; rw [h2] at h3; cases h3
        exact ⟨by simp only [setLoc_ne _ _ e]; exact h1, by simp only [setPc_ne _ _ e]; exact h2⟩
  exact ⟨key.2, key.1⟩

/-- Between two effects the calls come closer to the next. -/
theorem step_measure (ro : ReadsOnly g) {μ : σ → C → A → Nat} (hμ : ShrinksFrom g μ) {l : Nat → P} {N : Nat} (hN : ∀ t, N ≤ t → p.call (l t) = none)
    {s s' : CSt σ A C R P} (h : CReach g p l s) (hs : CStep g p s s') :
    (∃ t, AStep (seqObj g) p t (abs p s) (abs p s')) ∨ (abs p s' = abs p s ∧
      Prod.Lex (· < ·) (· < ·) (total rank s'.obj.pc N, total (left μ s'.obj.m) s'.obj.pc N) (total rank s.obj.pc N, total (left μ s.obj.m) s.obj.pc N)) := by
  rcases abs_step ro h hs with e | st
  · have hlt : ∀ t, (p.call (s.loc t) ≠ none ∨ s.obj.pc t ≠ .idle) → t < N := fun t ht => by
      by_contra hc
      obtain ⟨h1, h2⟩ := h.outside (hN t (by omega))
      rcases ht with ht | ht
      · rw [h2] at ht; exact ht (hN t (by omega))
      · exact ht h1
    have key : ∀ t q, t < N → s'.obj.pc = setPc s.obj.pc t q → rank q < rank (s.obj.pc t) →
        total rank s'.obj.pc N < total rank s.obj.pc N := by
      intro t q ht e hr
      have := total_setPc rank s.obj.pc t q N
      rw [e]
      simp only [ht, if_true] at this
      omega
    cases hs with
    | @invoke t c h1 h2 =>
      exact .inr ⟨e, .left _ _ (key t _ (hlt t (.inl (by rw [h2]; nofun))) rfl (by rw [h1]; exact Nat.lt_succ_self 2))⟩
    | @ret t id c r h1 =>
      exact .inr ⟨e, .left _ _ (key t _ (hlt t (.inr (by rw [h1]; nofun))) rfl (by rw [h1]; exact Nat.lt_succ_self 3))⟩
    | @inner o st hh =>
      have st0 := st
      cases st with
      | invoke h1 => simp at hh
      | ret h1 => simp at hh
      | @rlock t id c h1 => exact .inr ⟨e, .left _ _ (key t _ (hlt t (.inr (by rw [h1]; nofun))) rfl (by rw [h1]; exact Nat.lt_succ_self 1))⟩
      | @lock t id c h1 => exact .inr ⟨e, .left _ _ (key t _ (hlt t (.inr (by rw [h1]; nofun))) rfl (by rw [h1]; exact Nat.lt_succ_self 1))⟩
      | @runlock t id c r h1 => exact .inr ⟨e, .left _ _ (key t _ (hlt t (.inr (by rw [h1]; nofun))) rfl (by rw [h1]; exact Nat.lt_succ_self 4))⟩
      | @unlock t id c r h1 => exact .inr ⟨e, .left _ _ (key t _ (hlt t (.inr (by rw [h1]; nofun))) rfl (by rw [h1]; exact Nat.lt_succ_self 4))⟩
      | @iter t id c acc acc' h1 h2 =>
        right
        refine ⟨e, ?_⟩
        have ht := hlt t (.inr (by rw [h1]; nofun))
        have e1 := total_setPc rank s.obj.pc t (.body id c acc') N
        have e2 := total_setPc (left μ s.obj.m) s.obj.pc t (.body id c acc') N
        simp only [ht, if_true, h1, rank, left] at e1 e2
        obtain ⟨S, i⟩ := h.reach.inv ro
        have hp := i.pcs t
        rw [h1] at hp
        have := hμ _ _ _ _ hp.2.2 h2
        have e1' : total rank (setPc s.obj.pc t (.body id c acc')) N = total rank s.obj.pc N := by omega
        simp only [e1']
        exact .right _ (by omega)
      | @access t id c acc r m' h1 h2 =>
        left
        obtain ⟨S, i⟩ := h.reach.inv ro
        have hp := i.pcs t
        rw [h1] at hp
        have hc := h.calls (t := t) (c := c) (by rw [h1]; rfl)
        refine ⟨t, ?_⟩
        unfold abs
        simp only [view_setPc]
        have hv : view p (s.loc t) (s.obj.pc t) = s.loc t := by rw [h1]; rfl
        have := AStep.mk (o := seqObj g) (p := p) (t := t) (m := s.obj.m) (l := fun u => view p (s.loc u) (s.obj.pc u)) (c := c) (r := r) (m' := m')
          (by rw [hv]; exact hc) ⟨acc, hp.2.2, h2⟩
        rw [hv] at this
        exact this
  · exact .inl st

/-- **An end.** Programs of finitely many goroutines that end with whole calls end with the locks. -/
theorem client_ends' (ro : ReadsOnly g) {μ : σ → C → A → Nat} (hμ : ShrinksFrom g μ) {l : Nat → P} {N : Nat} (hN : ∀ t, N ≤ t → p.call (l t) = none)
    {s : CSt σ A C R P} (h : CReach g p l s) (ha : Acc (fun b a => ∃ t, AStep (seqObj g) p t a b) (abs p s)) :
    Acc (fun s' s => CStep g p s s') s := by
  generalize hx : abs p s = x at ha
  induction ha generalizing s with
  | intro x _ ih =>
    have wf : WellFounded (Prod.Lex (· < · : Nat → Nat → Prop) (· < · : Nat → Nat → Prop)) :=
      (Prod.lex ⟨_, Nat.lt_wfRel.wf⟩ ⟨_, Nat.lt_wfRel.wf⟩).wf
    generalize hm : (total rank s.obj.pc N, total (left μ s.obj.m) s.obj.pc N) = w
    induction w using wf.induction generalizing s with
    | _ w ihw =>
      refine ⟨_, fun s' hs => ?_⟩
      rcases step_measure ro hμ hN h hs with st | ⟨e, hlex⟩
      · exact ih _ (by rw [← hx]; exact st) (h.step hs) rfl
      · rw [hm] at hlex
        exact ihw _ hlex (h.step hs) (e.trans hx) rfl

theorem client_ends (ro : ReadsOnly g) {μ : σ → C → A → Nat} (hμ : Shrinks g μ) {l : Nat → P} {N : Nat} (hN : ∀ t, N ≤ t → p.call (l t) = none)
    {s : CSt σ A C R P} (h : CReach g p l s) (ha : Acc (fun b a => ∃ t, AStep (seqObj g) p t a b) (abs p s)) :
    Acc (fun s' s => CStep g p s s') s :=
  client_ends' (μ := μ) ro (fun _ _ _ _ _ st => hμ _ _ _ _ st) hN h ha

/-- What is reached from a moment on. -/
theorem CReach.later {l : Nat → P} {s s' : CSt σ A C R P} (h : CReach g p l s) (hs : ReflTransGen (CStep g p) s s') : CReach g p l s' := by
  induction hs with
  | refl => exact h
  | tail _ st ih => exact ih.step st

/-- The same, from one moment to another. -/
theorem atomic_from (ro : ReadsOnly g) {l : Nat → P} {s s' : CSt σ A C R P} (h : CReach g p l s) (hs : ReflTransGen (CStep g p) s s') :
    ReflTransGen (fun a b => ∃ t, AStep (seqObj g) p t a b) (abs p s) (abs p s') := by
  induction hs with
  | refl => exact .refl
  | tail hx st ih =>
    rcases abs_step ro (h.later hx) st with e | ast
    · rw [e]; exact ih
    · exact ih.tail ast

/-- Programs reach the same with an object that simulates another. -/
theorem areach_sim {τ : Type} {o : Obj σ C R} {o' : Obj τ C R} (r : σ → τ → Prop) (h0 : r o.init o'.init)
    (hs : ∀ s s' c x u, r s u → o.step s c x s' → ∃ u', o'.step u c x u' ∧ r s' u') {l : Nat → P} {a : σ × (Nat → P)} (h : AReach o p l a) :
    ∃ m, AReach o' p l (m, a.2) ∧ r a.1 m := by
  induction h with
  | start => exact ⟨_, .start, h0⟩
  | step _ st ih =>
    obtain ⟨m, h1, h2⟩ := ih
    cases st with
    | mk hc hst =>
      obtain ⟨m', h3, h4⟩ := hs _ _ _ _ _ h2 hst
      exact ⟨m', h1.step (.mk hc h3), h4⟩

/-- A program that ends with an object ends with one that the object simulates. -/
theorem acc_sim {τ : Type} {o : Obj σ C R} {o' : Obj τ C R} (r : σ → τ → Prop)
    (hs : ∀ s s' c x u, r s u → o.step s c x s' → ∃ u', o'.step u c x u' ∧ r s' u') {a : τ × (Nat → P)} {m : σ} (hm : r m a.1)
    (h : Acc (fun b a => ∃ t, AStep o' p t a b) a) : Acc (fun b a => ∃ t, AStep o p t a b) (m, a.2) := by
  induction h generalizing m with
  | intro a _ ih =>
    refine ⟨_, fun b ⟨t, st⟩ => ?_⟩
    obtain ⟨u, l⟩ := a
    cases st with
    | mk hc hst =>
      obtain ⟨u', h3, h4⟩ := hs _ _ _ _ _ hm hst
      exact ih (u', _) ⟨t, .mk hc h3⟩ h4

end Verif.Conc.RW
