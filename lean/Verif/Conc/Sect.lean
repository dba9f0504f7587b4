import Verif.Conc.Client
import Verif.Conc.Prod
/-!
# Sections of several calls under one `sync.RWMutex`

The mutex belongs to the program, not to the object. A goroutine takes it, for reading or for writing, makes any number of calls on the object, each
of them in steps of its own, and gives it back. Which call is next depends on what the calls before it returned. `Step` is every interleaving of
these steps; `Ser` makes a whole section at once.
-/
set_option linter.unusedSectionVars false
namespace Verif.Conc.Sect
open Verif.Conc Verif.Conc.RW Relation

/-- A program with sections. Outside, `enters` says whether the goroutine locks next (for writing if `true`), or is at its end; inside, `call` and `resume`
are as in a `Client`, and `call p = none` is the unlock; `leave` is what happens to the local state there. -/
structure Prog (P C R : Type) extends Client P C R where
  enters : P → Option Bool
  leave : P → P

/-- Where a goroutine is: outside, in a section between two calls, in a call. -/
inductive Pc (A C : Type) where
  | out
  | inside (w : Bool)
  | busy (w : Bool) (c : C) (acc : A)

variable {σ A C R P : Type}

/-- The lock a goroutine holds. -/
def Pc.mode : Pc A C → Option Bool
  | .out => none
  | .inside w => some w
  | .busy w _ _ => some w

/-- The object, the mutex, the goroutines with their local states. -/
structure St (σ A C P : Type) where
  m : σ
  writer : Option Nat
  readers : List Nat
  pc : Nat → Pc A C
  loc : Nat → P

def start (g : Guarded σ A C R) (l : Nat → P) : St σ A C P := { m := g.init, writer := none, readers := [], pc := fun _ => .out, loc := l }

/-- One step of goroutine `t`. -/
inductive Step (g : Guarded σ A C R) (p : Prog P C R) (t : Nat) : St σ A C P → St σ A C P → Prop where
  | rlock {s : St σ A C P} : s.pc t = .out → p.enters (s.loc t) = some false → s.writer = none →
      Step g p t s { s with pc := setLoc s.pc t (.inside false), readers := t :: s.readers }
  | lock {s : St σ A C P} : s.pc t = .out → p.enters (s.loc t) = some true → s.writer = none → s.readers = [] →
      Step g p t s { s with pc := setLoc s.pc t (.inside true), writer := some t }
  | call {s : St σ A C P} {w c} : s.pc t = .inside w → p.call (s.loc t) = some c →
      Step g p t s { s with pc := setLoc s.pc t (.busy w c g.start) }
  | iter {s : St σ A C P} {w c acc acc'} : s.pc t = .busy w c acc → g.iter s.m c acc acc' →
      Step g p t s { s with pc := setLoc s.pc t (.busy w c acc') }
  | fin {s : St σ A C P} {w c acc r m'} : s.pc t = .busy w c acc → g.fin s.m c acc r m' →
      Step g p t s { s with pc := setLoc s.pc t (.inside w), m := m', loc := setLoc s.loc t (p.resume (s.loc t) r) }
  | runlock {s : St σ A C P} : s.pc t = .inside false → p.call (s.loc t) = none →
      Step g p t s { s with pc := setLoc s.pc t .out, readers := s.readers.erase t, loc := setLoc s.loc t (p.leave (s.loc t)) }
  | unlock {s : St σ A C P} : s.pc t = .inside true → p.call (s.loc t) = none →
      Step g p t s { s with pc := setLoc s.pc t .out, writer := none, loc := setLoc s.loc t (p.leave (s.loc t)) }

/-- States that some schedule reaches. -/
inductive Reach (g : Guarded σ A C R) (p : Prog P C R) (l : Nat → P) : St σ A C P → Prop where
  | start : Reach g p l (start g l)
  | step {s s' t} : Reach g p l s → Step g p t s s' → Reach g p l s'

/-- One call of a section, made at once. -/
def CallStep (o : Obj σ C R) (p : Prog P C R) (a b : σ × P) : Prop :=
  ∃ c r, p.call a.2 = some c ∧ o.step a.1 c r b.1 ∧ b.2 = p.resume a.2 r

/-- A whole section of goroutine `t`, with nothing in between. A section for reading leaves the object as it is. -/
inductive Ser (o : Obj σ C R) (p : Prog P C R) (t : Nat) : σ × (Nat → P) → σ × (Nat → P) → Prop where
  | mk {m l w m' q} : p.enters (l t) = some w → ReflTransGen (CallStep o p) (m, l t) (m', q) → p.call q = none → (w = false → m' = m) →
      Ser o p t (m, l) (m', setLoc l t (p.leave q))

/-- What the goroutines reach section by section. -/
inductive SerReach (o : Obj σ C R) (p : Prog P C R) (l : Nat → P) : σ × (Nat → P) → Prop where
  | start : SerReach o p l (o.init, l)
  | step {a b t} : SerReach o p l a → Ser o p t a b → SerReach o p l b

/-- Under the lock for reading the program makes calls that read: `rd` are the local states it can be in there. -/
structure Honest (g : Guarded σ A C R) (p : Prog P C R) (rd : P → Prop) : Prop where
  enter : ∀ q, p.enters q = some false → rd q
  reads : ∀ q c, rd q → p.call q = some c → g.writes c = false
  stays : ∀ q r, rd q → p.call q ≠ none → rd (p.resume q r)

/-- A state, and the state `(m, l)` that the sections that have ended lead to. -/
structure Fits (g : Guarded σ A C R) (p : Prog P C R) (rd : P → Prop) (s : St σ A C P) (m : σ) (l : Nat → P) : Prop where
  outside : ∀ t, s.pc t = .out → l t = s.loc t
  within : ∀ t w, (s.pc t).mode = some w → p.enters (l t) = some w ∧ ReflTransGen (CallStep (seqObj g) p) (m, l t) (s.m, s.loc t)
  busy : ∀ t w c acc, s.pc t = .busy w c acc → p.call (s.loc t) = some c ∧ ReflTransGen (g.iter s.m c) g.start acc
  readers : ∀ t, t ∈ s.readers ↔ (s.pc t).mode = some false
  nodup : s.readers.Nodup
  writer : ∀ t, s.writer = some t ↔ (s.pc t).mode = some true
  excl : s.writer ≠ none → s.readers = []
  same : s.writer = none → s.m = m
  rd : ∀ t, (s.pc t).mode = some false → rd (s.loc t)

variable {g : Guarded σ A C R} {p : Prog P C R} {rd : P → Prop} {s s' : St σ A C P} {m : σ} {l : Nat → P} {t : Nat}

/-- Who is inside with somebody that writes is that one. -/
theorem Fits.alone (f : Fits g p rd s m l) (h : s.writer = some t) {u : Nat} {w : Bool} (hu : (s.pc u).mode = some w) : u = t := by
  cases w with
  | false =>
    have h1 := (f.readers u).2 hu
    rw [f.excl (by rw [h]; nofun)] at h1
    cases h1
  | true =>
    have := (f.writer u).2 hu
    rw [h] at this
    exact (Option.some.inj this).symm

/-- While somebody reads the object is as the ended sections left it. -/
theorem Fits.quiet (f : Fits g p rd s m l) (h : (s.pc t).mode = some false) : s.writer = none := by
  by_contra hc
  have h1 := (f.readers t).2 h
  rw [f.excl hc] at h1
  cases h1

theorem mode_set (f : Nat → Pc A C) (t : Nat) (q : Pc A C) (u : Nat) : (setLoc f t q u).mode = if u = t then q.mode else (f u).mode := by
  unfold setLoc; split <;> rfl

/-- A step that takes no lock and gives none back keeps the bookkeeping of the lock. -/
theorem Fits.locks (f : Fits g p rd s m l) {q : Pc A C} (hq : q.mode = (s.pc t).mode) (u : Nat) : (setLoc s.pc t q u).mode = (s.pc u).mode := by
  rw [mode_set]; split
  · next e => rw [e, hq]
  · rfl

theorem Fits.start (l : Nat → P) : Fits g p rd (start g l) g.init l where
  outside := fun _ _ => rfl
  within := by intro t w h; cases h
  busy := by intro t w c acc h; cases h
  readers := fun t => by simp [Sect.start, Pc.mode]
  nodup := by simp [Sect.start]
  writer := fun t => by simp [Sect.start, Pc.mode]
  excl := fun h => absurd rfl h
  same := fun _ => rfl
  rd := by intro t h; cases h

/-- A step that is not an unlock changes nothing about the ended sections. An unlock is the whole section. -/
theorem Fits.step (ro : ReadsOnly g) (ho : Honest g p rd) (f : Fits g p rd s m l) (st : Step g p t s s') :
    (Fits g p rd s' m l ∧ s'.pc t ≠ .out) ∨ ∃ m' l', Ser (seqObj g) p t (m, l) (m', l') ∧ Fits g p rd s' m' l' := by
  cases st with
  | rlock h1 h2 h3 =>
    refine .inl ⟨?_, by simp⟩
    constructor
    · intro u hu
      have e : u ≠ t := by rintro rfl; simp at hu
      simp only [setLoc_ne _ _ e] at hu; exact f.outside u hu
    · intro u w hu
      rw [mode_set] at hu
      by_cases e : u = t
      · subst e
        simp [Pc.mode] at hu
        subst hu
        rw [f.outside u h1, ← f.same h3]
        exact ⟨h2, .refl⟩
      · simp only [e, if_false] at hu; exact f.within u w hu
    · intro u w c acc hu
      have e : u ≠ t := by rintro rfl; simp at hu
      simp only [setLoc_ne _ _ e] at hu; exact f.busy u w c acc hu
    · intro u
      rw [mode_set]
      by_cases e : u = t
      · simp [e, Pc.mode]
      · simp [e, f.readers u]
    · refine List.nodup_cons.2 ⟨fun h => ?_, f.nodup⟩
      have := (f.readers t).1 h
      rw [h1] at this; cases this
    · intro u
      rw [mode_set]
      by_cases e : u = t
      · simp [e, Pc.mode, h3]
      · simp only [e, if_false]; exact f.writer u
    · intro h; exact absurd h3 h
    · exact f.same
    · intro u hu
      rw [mode_set] at hu
      by_cases e : u = t
      · subst e; exact ho.enter _ h2
      · simp only [e, if_false] at hu; exact f.rd u hu
  | lock h1 h2 h3 h4 =>
    refine .inl ⟨?_, by simp⟩
    have none_in : ∀ u w, (s.pc u).mode ≠ some w := by
      intro u w hu
      cases w with
      | false => have := (f.readers u).2 hu; rw [h4] at this; cases this
      | true => have := (f.writer u).2 hu; rw [h3] at this; cases this
    constructor
    · intro u hu
      have e : u ≠ t := by rintro rfl; simp at hu
      simp only [setLoc_ne _ _ e] at hu; exact f.outside u hu
    · intro u w hu
      rw [mode_set] at hu
      by_cases e : u = t
      · subst e
        simp [Pc.mode] at hu
        subst hu
        rw [f.outside u h1, ← f.same h3]
        exact ⟨h2, .refl⟩
      · simp only [e, if_false] at hu; exact f.within u w hu
    · intro u w c acc hu
      have e : u ≠ t := by rintro rfl; simp at hu
      simp only [setLoc_ne _ _ e] at hu; exact f.busy u w c acc hu
    · intro u
      rw [mode_set]
      by_cases e : u = t
      · simp [e, Pc.mode, h4]
      · simp only [e, if_false]; exact f.readers u
    · exact f.nodup
    · intro u
      rw [mode_set]
      by_cases e : u = t
      · simp [e, Pc.mode]
      · simp only [e, if_false]
        refine ⟨fun h => absurd (Option.some.inj h).symm e, fun h => absurd h (none_in u true)⟩
    · intro _; exact h4
    · intro h; cases h
    · intro u hu
      rw [mode_set] at hu
      by_cases e : u = t
      · simp [e, Pc.mode] at hu
      · simp only [e, if_false] at hu; exact f.rd u hu
  | @call w c h1 h2 =>
    have hl := f.locks (q := .busy w c g.start) (t := t) (by rw [h1]; rfl)
    refine .inl ⟨?_, by simp⟩
    constructor
    · intro u hu
      have e : u ≠ t := by rintro rfl; simp at hu
      simp only [setLoc_ne _ _ e] at hu; exact f.outside u hu
    · intro u w' hu; rw [hl] at hu; exact f.within u w' hu
    · intro u w' c' acc hu
      by_cases e : u = t
      · subst e; simp at hu; obtain ⟨rfl, rfl, rfl⟩ := hu; exact ⟨h2, .refl⟩
      · simp only [setLoc_ne _ _ e] at hu; exact f.busy u w' c' acc hu
    · intro u; rw [hl]; exact f.readers u
    · exact f.nodup
    · intro u; rw [hl]; exact f.writer u
    · exact f.excl
    · exact f.same
    · intro u hu; rw [hl] at hu; exact f.rd u hu
  | @iter w c acc acc' h1 h2 =>
    have hl := f.locks (q := .busy w c acc') (t := t) (by rw [h1]; rfl)
    refine .inl ⟨?_, by simp⟩
    constructor
    · intro u hu
      have e : u ≠ t := by rintro rfl; simp at hu
      simp only [setLoc_ne _ _ e] at hu; exact f.outside u hu
    · intro u w' hu; rw [hl] at hu; exact f.within u w' hu
    · intro u w' c' a hu
      by_cases e : u = t
      · subst e; simp at hu; obtain ⟨rfl, rfl, rfl⟩ := hu
        have := f.busy u _ _ _ h1
        exact ⟨this.1, this.2.tail h2⟩
      · simp only [setLoc_ne _ _ e] at hu; exact f.busy u w' c' a hu
    · intro u; rw [hl]; exact f.readers u
    · exact f.nodup
    · intro u; rw [hl]; exact f.writer u
    · exact f.excl
    · exact f.same
    · intro u hu; rw [hl] at hu; exact f.rd u hu
  | @fin w c acc r m' h1 h2 =>
    have hl := f.locks (q := .inside w) (t := t) (by rw [h1]; rfl)
    have hm : (s.pc t).mode = some w := by rw [h1]; rfl
    obtain ⟨hb1, hb2⟩ := f.busy t _ _ _ h1
    -- the memory changes only under the lock for writing
    have hmem : m' = s.m ∨ s.writer = some t := by
      cases w with
      | false => exact .inl (ro _ _ _ _ _ (ho.reads _ _ (f.rd t hm) hb1) h2)
      | true => exact .inr ((f.writer t).2 hm)
    refine .inl ⟨?_, by simp⟩
    constructor
    · intro u hu
      have e : u ≠ t := by rintro rfl; simp at hu
      simp only [setLoc_ne _ _ e] at hu ⊢; exact f.outside u hu
    · intro u w' hu
      rw [hl] at hu
      have h3 := f.within u w' hu
      by_cases e : u = t
      · subst e
        refine ⟨h3.1, h3.2.tail ⟨c, r, hb1, ⟨acc, hb2, h2⟩, ?_⟩⟩
        simp
      · simp only [setLoc_ne _ _ e]
        rcases hmem with e' | hw
        · rw [e']; exact h3
        · exact absurd (f.alone hw hu) e
    · intro u w' c' a hu
      have e : u ≠ t := by rintro rfl; simp at hu
      simp only [setLoc_ne _ _ e] at hu ⊢
      rcases hmem with e' | hw
      · rw [e']; exact f.busy u w' c' a hu
      · exact absurd (f.alone hw (u := u) (w := w') (by rw [hu]; rfl)) e
    · intro u; rw [hl]; exact f.readers u
    · exact f.nodup
    · intro u; rw [hl]; exact f.writer u
    · exact f.excl
    · intro h
      rcases hmem with e' | hw
      · simp only [e']; exact f.same h
      · rw [hw] at h; cases h
    · intro u hu
      rw [hl] at hu
      by_cases e : u = t
      · subst e; simp only [setLoc_same]; exact ho.stays _ _ (f.rd u hu) (by rw [hb1]; nofun)
      · simp only [setLoc_ne _ _ e]; exact f.rd u hu
  | runlock h1 h2 =>
    have hm : (s.pc t).mode = some false := by rw [h1]; rfl
    obtain ⟨h3, h4⟩ := f.within t _ hm
    have hw := f.quiet hm
    have hs := f.same hw
    refine .inr ⟨s.m, _, .mk h3 h4 h2 (fun _ => hs), ?_⟩
    constructor
    · intro u hu
      by_cases e : u = t
      · subst e; simp
      · simp only [setLoc_ne _ _ e] at hu ⊢; exact f.outside u hu
    · intro u w hu
      rw [mode_set] at hu
      by_cases e : u = t
      · simp [e, Pc.mode] at hu
      · simp only [e, if_false] at hu
        simp only [setLoc_ne _ _ e]
        have := f.within u w hu
        rwa [← hs] at this
    · intro u w c acc hu
      have e : u ≠ t := by rintro rfl; simp at hu
      simp only [setLoc_ne _ _ e] at hu ⊢; exact f.busy u w c acc hu
    · intro u
      simp only [mode_set]
      by_cases e : u = t
      · subst e; simp [Pc.mode, List.Nodup.mem_erase_iff f.nodup]
      · simp only [e, if_false, List.Nodup.mem_erase_iff f.nodup, ne_eq, not_false_eq_true, true_and]; exact f.readers u
    · exact f.nodup.erase t
    · intro u
      simp only [mode_set]
      by_cases e : u = t
      · simp [e, Pc.mode, hw]
      · simp only [e, if_false]; exact f.writer u
    · intro h; exact absurd hw h
    · intro _; rfl
    · intro u hu
      rw [mode_set] at hu
      by_cases e : u = t
      · simp [e, Pc.mode] at hu
      · simp only [e, if_false] at hu
        simp only [setLoc_ne _ _ e]; exact f.rd u hu
  | unlock h1 h2 =>
    have hm : (s.pc t).mode = some true := by rw [h1]; rfl
    obtain ⟨h3, h4⟩ := f.within t _ hm
    have hw := (f.writer t).2 hm
    have others : ∀ u w, u ≠ t → (s.pc u).mode ≠ some w := fun u w e hu => e (f.alone hw hu)
    refine .inr ⟨s.m, _, .mk h3 h4 h2 (fun h => by cases h), ?_⟩
    constructor
    · intro u hu
      by_cases e : u = t
      · subst e; simp
      · simp only [setLoc_ne _ _ e] at hu ⊢; exact f.outside u hu
    · intro u w hu
      rw [mode_set] at hu
      by_cases e : u = t
      · simp [e, Pc.mode] at hu
      · simp only [e, if_false] at hu; exact absurd hu (others u w e)
    · intro u w c acc hu
      have e : u ≠ t := by rintro rfl; simp at hu
      simp only [setLoc_ne _ _ e] at hu; exact absurd (by rw [hu]; rfl) (others u w e)
    · intro u
      simp only [mode_set, f.excl (by rw [hw]; nofun)]
      by_cases e : u = t
      · simp [e, Pc.mode]
      · simp only [e, if_false]
        exact ⟨fun h => (by cases h), fun h => absurd h (others u _ e)⟩
    · exact f.nodup
    · intro u
      simp only [mode_set]
      by_cases e : u = t
      · simp [e, Pc.mode]
      · simp only [e, if_false]
        exact ⟨fun h => (by cases h), fun h => absurd h (others u _ e)⟩
    · intro h; exact absurd rfl h
    · intro _; rfl
    · intro u hu
      rw [mode_set] at hu
      by_cases e : u = t
      · simp [e, Pc.mode] at hu
      · simp only [e, if_false] at hu; exact absurd hu (others u _ e)

/-- **Sections are made at once.** -/
theorem serial (ro : ReadsOnly g) (ho : Honest g p rd) {l : Nat → P} (h : Reach g p l s) :
    ∃ m l', SerReach (seqObj g) p l (m, l') ∧ Fits g p rd s m l' := by
  induction h with
  | start => exact ⟨_, _, .start, .start l⟩
  | step _ st ih =>
    obtain ⟨m, l', h1, h2⟩ := ih
    rcases h2.step ro ho st with ⟨h3, _⟩ | ⟨m', l'', h3, h4⟩
    · exact ⟨m, l', h1, h3⟩
    · exact ⟨m', l'', h1.step h3, h4⟩

/-- **No deadlock.** -/
theorem stuck (ro : ReadsOnly g) (ho : Honest g p rd) (lv : Live g) {l : Nat → P} (h : Reach g p l s) (hn : ¬ ∃ t s', Step g p t s s') (t : Nat) :
    s.pc t = .out ∧ p.enters (s.loc t) = none := by
  obtain ⟨m, l', -, f⟩ := serial ro ho h
  have out : ∀ u, s.pc u = .out := by
    intro u
    cases e : s.pc u with
    | out => rfl
    | inside w =>
      refine absurd ?_ hn
      cases hc : p.call (s.loc u) with
      | some c => exact ⟨u, _, .call e hc⟩
      | none => cases w with
        | false => exact ⟨u, _, .runlock e hc⟩
        | true => exact ⟨u, _, .unlock e hc⟩
    | busy w c acc =>
      refine absurd ?_ hn
      rcases lv s.m c acc (f.busy u w c acc e).2 with ⟨acc', h1⟩ | ⟨r, m', h1⟩
      · exact ⟨u, _, .iter e h1⟩
      · exact ⟨u, _, .fin e h1⟩
  have hw : s.writer = none := by
    cases e : s.writer with
    | none => rfl
    | some u => have := (f.writer u).1 e; rw [out u] at this; cases this
  have hr : s.readers = [] := by
    cases e : s.readers with
    | nil => rfl
    | cons u us => have := (f.readers u).1 (by rw [e]; exact List.mem_cons_self); rw [out u] at this; cases this
  refine ⟨out t, ?_⟩
  cases e : p.enters (s.loc t) with
  | none => rfl
  | some w =>
    refine absurd ?_ hn
    cases w with
    | false => exact ⟨t, _, .rlock (out t) e hw⟩
    | true => exact ⟨t, _, .lock (out t) e hw hr⟩

/-! ## An end -/

/-- The part of the state that is the business of one goroutine: the memory it sees, where it is, its local state. -/
inductive Own (g : Guarded σ A C R) (p : Prog P C R) : σ × Pc A C × P → σ × Pc A C × P → Prop where
  | enter {m q w} : p.enters q = some w → Own g p (m, .out, q) (m, .inside w, q)
  | call {m q w c} : p.call q = some c → Own g p (m, .inside w, q) (m, .busy w c g.start, q)
  | iter {m q w c acc acc'} : ReflTransGen (g.iter m c) g.start acc → g.iter m c acc acc' → Own g p (m, .busy w c acc, q) (m, .busy w c acc', q)
  | fin {m q w c acc r m'} : p.call q = some c → ReflTransGen (g.iter m c) g.start acc → g.fin m c acc r m' →
      Own g p (m, .busy w c acc, q) (m', .inside w, p.resume q r)

theorem own_inside {μ : σ → C → A → Nat} (hμ : ShrinksFrom g μ) {w : Bool} {a : σ × P} (h : Acc (fun b a => CallStep (seqObj g) p a b) a) :
    Acc (fun b a => Own g p a b) (a.1, Pc.inside w, a.2) := by
  induction h with
  | intro a _ ih =>
    obtain ⟨m, q⟩ := a
    have busy : ∀ n c acc, p.call q = some c → μ m c acc = n → Acc (fun b a => Own g p a b) (m, Pc.busy w c acc, q) := by
      intro n
      induction n using Nat.strongRecOn with
      | _ n ihn =>
        intro c acc hc hn
        refine ⟨_, fun b hb => ?_⟩
        generalize hx : ((m, Pc.busy w c acc, q) : σ × Pc A C × P) = x at hb
        cases hb with
        | enter _ => cases hx
        | call _ => cases hx
        | iter h1 h2 =>
          cases hx
          exact ihn _ (by rw [← hn]; exact hμ _ _ _ _ h1 h2) _ _ hc rfl
        | fin h1 h2 h3 =>
          cases hx
          exact ih (_, p.resume q _) ⟨_, _, h1, ⟨_, h2, h3⟩, rfl⟩
    refine ⟨_, fun b hb => ?_⟩
    generalize hx : ((m, Pc.inside w, q) : σ × Pc A C × P) = x at hb
    cases hb with
    | enter _ => cases hx
    | call h1 => cases hx; exact busy _ _ _ h1 rfl
    | iter _ _ => cases hx
    | fin _ _ _ => cases hx

/-- The memory a goroutine sees: who writes sees the object, the others what the ended sections left. -/
def own (s : St σ A C P) (m : σ) (t : Nat) : σ × Pc A C × P := (if s.writer = some t then s.m else m, s.pc t, s.loc t)

theorem own_step (f : Fits g p rd s m l) (st : Step g p t s s') (f' : Fits g p rd s' m l) (ho : s'.pc t ≠ .out) :
    Own g p (own s m t) (own s' m t) ∧ ∀ u, u ≠ t → own s' m u = own s m u := by
  have mem : ∀ w, (s.pc t).mode = some w → (if s.writer = some t then s.m else m) = s.m := by
    intro w hw
    split
    · rfl
    · next h =>
      cases w with
      | false => exact (f.same (f.quiet hw)).symm
      | true => exact absurd ((f.writer t).2 hw) h
  have mem' : ∀ w, (s'.pc t).mode = some w → (if s'.writer = some t then s'.m else m) = s'.m := by
    intro w hw
    split
    · rfl
    · next h =>
      cases w with
      | false => exact (f'.same (f'.quiet hw)).symm
      | true => exact absurd ((f'.writer t).2 hw) h
  have h0 : own s' m t = (s'.m, s'.pc t, s'.loc t) := by
    unfold own
    cases e : s'.pc t with
    | out => exact absurd e ho
    | inside w => rw [mem' w (by rw [e]; rfl)]
    | busy w _ _ => rw [mem' w (by rw [e]; rfl)]
  rw [h0]
  have h1 : ∀ w, (s.pc t).mode = some w → own s m t = (s.m, s.pc t, s.loc t) := fun w hw => by unfold own; rw [mem w hw]
  have h2 : s.pc t = .out → s.writer = none → own s m t = (s.m, s.pc t, s.loc t) := fun _ hw => by unfold own; rw [hw, f.same hw]; simp
  have h3 : ∀ u, u ≠ t → s'.pc u = s.pc u ∧ s'.loc u = s.loc u ∧ (if s'.writer = some u then s'.m else m) = if s.writer = some u then s.m else m := by
    intro u e
    cases st with
    | rlock _ _ _ => exact ⟨setLoc_ne _ _ e, rfl, rfl⟩
    | lock _ _ h3 _ => exact ⟨setLoc_ne _ _ e, rfl, by rw [h3, if_neg (fun h => e (Option.some.inj h).symm)]; simp⟩
    | call _ _ => exact ⟨setLoc_ne _ _ e, rfl, rfl⟩
    | iter _ _ => exact ⟨setLoc_ne _ _ e, rfl, rfl⟩
    | @fin w c acc r m' h4 h5 =>
      refine ⟨setLoc_ne _ _ e, setLoc_ne _ _ e, ?_⟩
      simp only
      by_cases hu : s.writer = some u
      · exact absurd (f.alone hu (u := t) (w := w) (by rw [h4]; rfl)).symm e
      · simp [hu]
    | runlock _ _ => exact absurd (by simp) ho
    | unlock _ _ => exact absurd (by simp) ho
  refine ⟨?_, fun u e => by obtain ⟨e1, e2, e3⟩ := h3 u e; unfold own; rw [e1, e2, e3]⟩
  cases st with
  | rlock a1 a2 a3 => rw [h2 a1 a3, a1]; simp only [setLoc_same]; exact .enter a2
  | lock a1 a2 a3 _ => rw [h2 a1 a3, a1]; simp only [setLoc_same]; exact .enter a2
  | call a1 a2 => rw [h1 _ (by rw [a1]; rfl), a1]; simp only [setLoc_same]; exact .call a2
  | iter a1 a2 => rw [h1 _ (by rw [a1]; rfl)]; have := f.busy t _ _ _ a1; rw [a1]; simp only [setLoc_same]; exact .iter this.2 a2
  | fin a1 a2 => rw [h1 _ (by rw [a1]; rfl)]; have := f.busy t _ _ _ a1; rw [a1]; simp only [setLoc_same]; exact .fin this.1 this.2 a2
  | runlock _ _ => exact absurd (by simp) ho
  | unlock _ _ => exact absurd (by simp) ho

/-- A goroutine that is at its end stays there. -/
theorem idle_ser {o : Obj σ C R} {l : Nat → P} {a : σ × (Nat → P)} (h : SerReach o p l a) {t : Nat} (ht : p.enters (l t) = none) : a.2 t = l t := by
  induction h with
  | start => rfl
  | @step a b u _ st ih =>
    cases st with
    | mk h1 _ _ _ =>
      have e : t ≠ u := by rintro rfl; simp only at ih; rw [ih, ht] at h1; cases h1
      simp only [setLoc_ne _ _ e]; exact ih

/-- **An end.** Finitely many goroutines whose sections end, each by itself, and whose programs end with whole sections. -/
theorem ends (ro : ReadsOnly g) (ho : Honest g p rd) {μ : σ → C → A → Nat} (hμ : ShrinksFrom g μ) {l : Nat → P} {N : Nat}
    (hN : ∀ t, N ≤ t → p.enters (l t) = none)
    (hsec : ∀ a, SerReach (seqObj g) p l a → ∀ t w, p.enters (a.2 t) = some w → Acc (fun y x => CallStep (seqObj g) p x y) (a.1, a.2 t))
    (hser : ∀ a, SerReach (seqObj g) p l a → Acc (fun b a => ∃ t, Ser (seqObj g) p t a b) a) (h : Reach g p l s) :
    Acc (fun s' s => ∃ t, Step g p t s s') s := by
  obtain ⟨m, l', hr, f⟩ := serial ro ho h
  have ha := hser _ hr
  generalize hx : (m, l') = x at ha
  induction ha generalizing s m l' with
  | intro x _ ih =>
    subst hx
    have big : ∀ u, N ≤ u → s.pc u = .out ∧ p.enters (s.loc u) = none := by
      intro u hu
      have e := idle_ser hr (hN u hu)
      simp only at e
      have e0 : s.pc u = .out := by
        cases e1 : s.pc u with
        | out => rfl
        | inside w => have := (f.within u w (by rw [e1]; rfl)).1; rw [e, hN u hu] at this; cases this
        | busy w _ _ => have := (f.within u w (by rw [e1]; rfl)).1; rw [e, hN u hu] at this; cases this
      refine ⟨e0, ?_⟩
      rw [← f.outside u e0, e, hN u hu]
    have hacc : Acc (fun b a => ∃ t, t < N ∧ Own g p (a t) (b t) ∧ ∀ u, u ≠ t → b u = a u) (own s m) := by
      refine acc_prod (R := fun _ b a => Own g p a b) N (own s m) fun t _ => ?_
      have base : Acc (fun b a => Own g p a b) ((m, Pc.out, l' t) : σ × Pc A C × P) := by
        refine ⟨_, fun b hb => ?_⟩
        generalize hy : ((m, Pc.out, l' t) : σ × Pc A C × P) = y at hb
        cases hb with
        | enter h1 => cases hy; exact own_inside (p := p) hμ (hsec _ hr t _ h1)
        | call _ => cases hy
        | iter _ _ => cases hy
        | fin _ _ _ => cases hy
      have ins : ∀ w (a : σ × P), ReflTransGen (CallStep (seqObj g) p) (m, l' t) a → p.enters (l' t) = some w →
          Acc (fun b a => Own g p a b) (a.1, Pc.inside w, a.2) := by
        intro w a hra hw
        refine own_inside (p := p) hμ ?_
        have := hsec _ hr t w hw
        induction hra with
        | refl => exact this
        | tail _ st ih => exact ih.inv st
      unfold own
      have memE : ∀ w, (s.pc t).mode = some w → (if s.writer = some t then s.m else m) = s.m := by
        intro w hw
        split
        · rfl
        · next h =>
          cases w with
          | false => exact (f.same (f.quiet hw)).symm
          | true => exact absurd ((f.writer t).2 hw) h
      cases e : s.pc t with
      | out =>
        have e1 : s.writer ≠ some t := fun h => by have := (f.writer t).1 h; rw [e] at this; cases this
        rw [if_neg e1, ← f.outside t e]
        exact base
      | inside w =>
        rw [memE w (by rw [e]; rfl)]
        obtain ⟨h1, h2⟩ := f.within t w (by rw [e]; rfl)
        exact ins w _ h2 h1
      | busy w c acc =>
        rw [memE w (by rw [e]; rfl)]
        obtain ⟨h1, h2⟩ := f.within t w (by rw [e]; rfl)
        obtain ⟨h3, h4⟩ := f.busy t w c acc e
        have a0 := (ins w _ h2 h1).inv (Own.call (g := g) (w := w) h3)
        clear e
        induction h4 with
        | refl => exact a0
        | tail hpre st ihi => exact ihi.inv (Own.iter hpre st)
    generalize ho' : own s m = c at hacc
    induction hacc generalizing s with
    | intro c _ ih2 =>
      subst ho'
      refine ⟨_, fun s' ⟨t, st⟩ => ?_⟩
      rcases f.step ro ho st with ⟨f', hout⟩ | ⟨m', l'', h3, f'⟩
      · obtain ⟨o1, o2⟩ := own_step f st f' hout
        have ht : t < N := by
          by_contra hc
          obtain ⟨b1, b2⟩ := big t (by omega)
          cases st with
          | rlock _ h2 _ => rw [b2] at h2; cases h2
          | lock _ h2 _ _ => rw [b2] at h2; cases h2
          | call h1 _ => rw [b1] at h1; cases h1
          | iter h1 _ => rw [b1] at h1; cases h1
          | fin h1 _ => rw [b1] at h1; cases h1
          | runlock h1 _ => rw [b1] at h1; cases h1
          | unlock h1 _ => rw [b1] at h1; cases h1
        refine ih2 _ ⟨t, ht, o1, o2⟩ (h.step st) f' ?_ rfl
        intro u hu
        have e := idle_ser hr (hN u hu)
        simp only at e
        have e0 : s'.pc u = .out := by
          cases e1 : s'.pc u with
          | out => rfl
          | inside w => have := (f'.within u w (by rw [e1]; rfl)).1; rw [e, hN u hu] at this; cases this
          | busy w _ _ => have := (f'.within u w (by rw [e1]; rfl)).1; rw [e, hN u hu] at this; cases this
        refine ⟨e0, ?_⟩
        rw [← f'.outside u e0, e, hN u hu]
      · exact ih _ ⟨t, h3⟩ (h.step st) m' l'' (hr.step h3) f' rfl

/-! ## Other objects -/

/-- Programs reach the same section by section with an object that simulates another. -/
theorem calls_sim {τ : Type} {o : Obj σ C R} {o' : Obj τ C R} (r : σ → τ → Prop)
    (hs : ∀ s s' c x u, r s u → o.step s c x s' → ∃ u', o'.step u c x u' ∧ r s' u') {a b : σ × P} (h : ReflTransGen (CallStep o p) a b) {u : τ} (hu : r a.1 u) :
    ∃ u', ReflTransGen (CallStep o' p) (u, a.2) (u', b.2) ∧ r b.1 u' := by
  induction h with
  | refl => exact ⟨u, .refl, hu⟩
  | tail _ st ih =>
    obtain ⟨u', h1, h2⟩ := ih
    obtain ⟨c, x, h3, h4, h5⟩ := st
    obtain ⟨u'', h6, h7⟩ := hs _ _ _ _ _ h2 h4
    exact ⟨u'', h1.tail ⟨c, x, h3, h6, h5⟩, h7⟩

/-- Under the lock for reading an object that only calls that write change does not change. -/
theorem calls_read {τ : Type} {o : Obj τ C R} (ho : Honest g p rd) (hro : ∀ u c x u', g.writes c = false → o.step u c x u' → u' = u)
    {a b : τ × P} (h : ReflTransGen (CallStep o p) a b) (ha : rd a.2) : b.1 = a.1 ∧ rd b.2 := by
  induction h with
  | refl => exact ⟨rfl, ha⟩
  | tail _ st ih =>
    obtain ⟨c, x, h3, h4, h5⟩ := st
    obtain ⟨e, h6⟩ := ih
    refine ⟨(hro _ _ _ _ (ho.reads _ _ h6 h3) h4).trans e, ?_⟩
    rw [h5]; exact ho.stays _ _ h6 (by rw [h3]; nofun)

theorem ser_sim {τ : Type} {o' : Obj τ C R} (r : σ → τ → Prop) (ho : Honest g p rd) (hro : ∀ u c x u', g.writes c = false → o'.step u c x u' → u' = u)
    (hs : ∀ s s' c x u, r s u → (seqObj g).step s c x s' → ∃ u', o'.step u c x u' ∧ r s' u') (h0 : r g.init o'.init)
    {l : Nat → P} {a : σ × (Nat → P)} (h : SerReach (seqObj g) p l a) : ∃ u, SerReach o' p l (u, a.2) ∧ r a.1 u := by
  induction h with
  | start => exact ⟨_, .start, h0⟩
  | step _ st ih =>
    obtain ⟨u, h1, h2⟩ := ih
    cases st with
    | @mk m l' w m' q h3 h4 h5 h6 =>
      obtain ⟨u', h7, h8⟩ := calls_sim r hs h4 h2
      refine ⟨u', h1.step (.mk h3 h7 h5 fun hw => ?_), h8⟩
      subst hw
      exact (calls_read ho hro h7 (ho.enter _ h3)).1

/-- The whole claim with an object that simulates the one in memory. -/
theorem serial_sim {τ : Type} {o' : Obj τ C R} (r : σ → τ → Prop) (ro : ReadsOnly g) (ho : Honest g p rd)
    (hro : ∀ u c x u', g.writes c = false → o'.step u c x u' → u' = u)
    (hs : ∀ s s' c x u, r s u → (seqObj g).step s c x s' → ∃ u', o'.step u c x u' ∧ r s' u') (h0 : r g.init o'.init)
    {l : Nat → P} (h : Reach g p l s) :
    ∃ m l', SerReach o' p l (m, l') ∧ (∀ t, s.pc t = .out → s.loc t = l' t) ∧ (s.writer = none → r s.m m) ∧
      ∀ t w, (s.pc t).mode = some w → p.enters (l' t) = some w ∧
        ∃ m', ReflTransGen (CallStep o' p) (m, l' t) (m', s.loc t) ∧ r s.m m' ∧ (w = false → m' = m) := by
  obtain ⟨m, l', h1, f⟩ := serial ro ho h
  obtain ⟨u, h2, h3⟩ := ser_sim r ho hro hs h0 h1
  refine ⟨u, l', h2, fun t ht => (f.outside t ht).symm, fun hw => by rw [f.same hw]; exact h3, fun t w hw => ?_⟩
  obtain ⟨h4, h5⟩ := f.within t w hw
  obtain ⟨u', h6, h7⟩ := calls_sim r hs h5 h3
  refine ⟨h4, u', h6, h7, fun e => ?_⟩
  subst e
  exact (calls_read ho hro h6 (ho.enter _ h4)).1

/-- Programs without endless loops: `ρ` bounds the calls that are left, and no section is empty. -/
structure Bounded (p : Prog P C R) (ρ : P → Nat) : Prop where
  call : ∀ q c r, p.call q = some c → ρ (p.resume q r) < ρ q
  leave : ∀ q, ρ (p.leave q) ≤ ρ q
  some : ∀ q w, p.enters q = some w → p.call q ≠ none

theorem calls_rank {ρ : P → Nat} (hb : Bounded p ρ) {o : Obj σ C R} {a b : σ × P} (h : ReflTransGen (CallStep o p) a b) : ρ b.2 ≤ ρ a.2 := by
  induction h with
  | refl => exact Nat.le_refl _
  | tail _ st ih =>
    obtain ⟨c, x, h3, _, h5⟩ := st
    have := hb.call _ _ x h3
    rw [← h5] at this
    omega

theorem sec_bounded {ρ : P → Nat} (hb : Bounded p ρ) {o : Obj σ C R} (a : σ × P) : Acc (fun y x => CallStep o p x y) a := by
  generalize hn : ρ a.2 = n
  induction n using Nat.strongRecOn generalizing a with
  | _ n ih =>
    refine ⟨_, fun b ⟨c, x, h3, _, h5⟩ => ih (ρ b.2) ?_ b rfl⟩
    have := hb.call _ _ x h3
    rw [← h5] at this
    omega

theorem ser_bounded {ρ : P → Nat} (hb : Bounded p ρ) {o : Obj σ C R} {l : Nat → P} {N : Nat} (hN : ∀ t, N ≤ t → p.enters (l t) = none)
    {a : σ × (Nat → P)} (h : SerReach o p l a) : Acc (fun b a => ∃ t, Ser o p t a b) a := by
  have key : Acc (fun b a : Nat → P => ∃ t, t < N ∧ ρ (b t) < ρ (a t) ∧ ∀ u, u ≠ t → b u = a u) a.2 :=
    acc_prod (R := fun _ y x => ρ y < ρ x) N a.2 fun t _ => (measure ρ).wf.apply _
  generalize hx : a.2 = x at key
  induction key generalizing a with
  | intro x _ ih =>
    subst hx
    refine ⟨_, fun b ⟨t, st⟩ => ih b.2 ?_ (h.step st) rfl⟩
    have ht : t < N := by
      by_contra hc
      have e := idle_ser h (hN t (by omega))
      cases st with
      | mk h1 _ _ _ => simp only at e; rw [e, hN t (by omega)] at h1; cases h1
    refine ⟨t, ht, ?_, ?_⟩
    · cases st with
      | @mk m l' w m' q h1 h2 h3 _ =>
        simp only [setLoc_same]
        have h4 := hb.leave q
        have h5 : ρ q < ρ (l' t) := by
          rcases h2.cases_head with e | ⟨y, hy, hrest⟩
          · have := hb.some _ _ h1
            cases e
            exact absurd h3 this
          · obtain ⟨c, x, h6, _, h7⟩ := hy
            have h8 := hb.call _ _ x h6
            rw [← h7] at h8
            have h9 := calls_rank hb hrest
            simp only at h8 h9
            omega
        omega
    · intro u hu
      cases st with
      | mk _ _ _ _ => exact setLoc_ne _ _ hu

/-- Programs without endless loops end. -/
theorem ends_bounded (ro : ReadsOnly g) (ho : Honest g p rd) {μ : σ → C → A → Nat} (hμ : ShrinksFrom g μ) {ρ : P → Nat} (hb : Bounded p ρ) {l : Nat → P} {N : Nat}
    (hN : ∀ t, N ≤ t → p.enters (l t) = none) (h : Reach g p l s) : Acc (fun s' s => ∃ t, Step g p t s s') s :=
  ends ro ho hμ hN (fun _ _ _ _ _ => sec_bounded hb _) (fun _ h => ser_bounded hb hN h) h

/-- A call made by itself returns. -/
theorem total (lv : Live g) {μ : σ → C → A → Nat} (hμ : ShrinksFrom g μ) (m : σ) (c : C) : ∃ r m', (seqObj g).step m c r m' := by
  have key : ∀ n acc, ReflTransGen (g.iter m c) g.start acc → μ m c acc = n → ∃ r m', (seqObj g).step m c r m' := by
    intro n
    induction n using Nat.strongRecOn with
    | _ n ih =>
      intro acc h hn
      rcases lv m c acc h with ⟨acc', h1⟩ | ⟨r, m', h1⟩
      · exact ih _ (by rw [← hn]; exact hμ _ _ _ _ h h1) acc' (h.tail h1) rfl
      · exact ⟨r, m', acc, h, h1⟩
  exact key _ _ .refl rfl

/-- What is reached section by section is reached with the mutex. -/
theorem sequential {l : Nat → P} {a : σ × (Nat → P)} (h : SerReach (seqObj g) p l a) :
    Reach g p l { m := a.1, writer := none, readers := [], pc := fun _ => .out, loc := a.2 } := by
  have set2 : ∀ {X : Type} (f : Nat → X) t x y, setLoc (setLoc f t x) t y = setLoc f t y := by
    intro X f t x y; funext u; unfold setLoc; split <;> rfl
  have set0 : ∀ (t : Nat), setLoc (fun _ => (Pc.out : Pc A C)) t .out = fun _ => .out := by
    intro t; funext u; unfold setLoc; split <;> rfl
  have path : ∀ {s0 : St σ A C P} {t w}, Reach g p l s0 → s0.pc t = .inside w → ∀ {b : σ × P}, ReflTransGen (CallStep (seqObj g) p) (s0.m, s0.loc t) b →
      Reach g p l { s0 with m := b.1, loc := setLoc s0.loc t b.2 } := by
    intro s0 t w hr hpc b hb
    induction hb with
    | refl => simp only [setLoc_self s0.loc t _ rfl]; exact hr
    | @tail b c hpre st ih =>
      obtain ⟨c', x, h3, ⟨acc, h4, h5⟩, h6⟩ := st
      have r1 := ih.step (t := t) (.call (w := w) (c := c') (by simpa using hpc) (by simpa using h3))
      have r2 : ∀ acc', ReflTransGen (g.iter b.1 c') g.start acc' →
          Reach g p l { s0 with m := b.1, loc := setLoc s0.loc t b.2, pc := setLoc s0.pc t (.busy w c' acc') } := by
        intro acc' hacc
        induction hacc with
        | refl => exact r1
        | tail _ hst ih' =>
          have := ih'.step (t := t) (.iter (w := w) (c := c') (by simp) hst)
          simp only [set2] at this
          exact this
      have r3 := (r2 acc h4).step (t := t) (.fin (w := w) (c := c') (acc := acc) (r := x) (m' := c.1) (by simp) h5)
      simp only [set2, setLoc_same, ← h6, setLoc_self s0.pc t _ hpc.symm] at r3
      exact r3
  induction h with
  | start => exact .start
  | @step a b t _ st ih =>
    cases st with
    | @mk m l' w m' q h1 h2 h3 h4 =>
      cases w with
      | false =>
        have e := h4 rfl
        subst e
        have r1 := ih.step (t := t) (.rlock rfl h1 rfl)
        have r2 := path (t := t) (w := false) r1 (by simp) h2
        have r3 := r2.step (t := t) (.runlock (by simp) (by simpa using h3))
        simp only [set2, setLoc_same, set0, List.erase_cons_head] at r3
        exact r3
      | true =>
        have r1 := ih.step (t := t) (.lock rfl h1 rfl rfl)
        have r2 := path (t := t) (w := true) r1 (by simp) h2
        have r3 := r2.step (t := t) (.unlock (by simp) (by simpa using h3))
        simp only [set2, setLoc_same, set0] at r3
        exact r3

end Verif.Conc.Sect
