import Verif.Conc.Lin
import Mathlib.Logic.Relation
/-!
# Objects behind a `sync.RWMutex`

Any number of goroutines call methods of an object. Every method takes the lock, for reading or for writing, works on
the object in any number of steps of its own, makes a last access, gives the lock back and returns. Steps of different
goroutines interleave arbitrarily. Methods that read leave the object as it is.
-/
set_option linter.unusedSectionVars false
namespace Verif.Conc.RW
open Verif.Conc Relation

/-- An object. `iter` are the steps of a method before its last access `fin`; they only change what is local to the call. -/
structure Guarded (σ A C R : Type) where
  init : σ
  writes : C → Bool
  start : A
  iter : σ → C → A → A → Prop
  fin : σ → C → A → R → σ → Prop

variable {σ A C R : Type}

/-- Where a goroutine is: `want` before the lock, `body` in the method, `held` after its last access with the lock still held,
`out` after the unlock. -/
inductive Pc (A C R : Type) where
  | idle
  | want (id : Nat) (c : C)
  | body (id : Nat) (c : C) (acc : A)
  | held (id : Nat) (c : C) (r : R)
  | out (id : Nat) (c : C) (r : R)

/-- The object, the lock, the goroutines, and the history seen so far. `next` numbers the calls. -/
structure St (σ A C R : Type) where
  m : σ
  writer : Option Nat
  readers : List Nat
  pc : Nat → Pc A C R
  next : Nat
  hist : List (Event C R)

def setPc (f : Nat → Pc A C R) (t : Nat) (p : Pc A C R) : Nat → Pc A C R := fun t' => if t' = t then p else f t'

variable (g : Guarded σ A C R)

def start : St σ A C R := { m := g.init, writer := none, readers := [], pc := fun _ => .idle, next := 0, hist := [] }

/-- One step of one goroutine. -/
inductive Step : St σ A C R → St σ A C R → Prop
  | invoke {s t c} : s.pc t = .idle →
      Step s { s with pc := setPc s.pc t (.want s.next c), next := s.next + 1, hist := s.hist ++ [.inv s.next c] }
  | rlock {s t id c} : s.pc t = .want id c → g.writes c = false → s.writer = none →
      Step s { s with pc := setPc s.pc t (.body id c g.start), readers := t :: s.readers }
  | lock {s t id c} : s.pc t = .want id c → g.writes c = true → s.writer = none → s.readers = [] →
      Step s { s with pc := setPc s.pc t (.body id c g.start), writer := some t }
  | iter {s t id c acc acc'} : s.pc t = .body id c acc → g.iter s.m c acc acc' →
      Step s { s with pc := setPc s.pc t (.body id c acc') }
  | access {s t id c acc r m'} : s.pc t = .body id c acc → g.fin s.m c acc r m' →
      Step s { s with pc := setPc s.pc t (.held id c r), m := m' }
  | runlock {s t id c r} : s.pc t = .held id c r → g.writes c = false →
      Step s { s with pc := setPc s.pc t (.out id c r), readers := s.readers.erase t }
  | unlock {s t id c r} : s.pc t = .held id c r → g.writes c = true →
      Step s { s with pc := setPc s.pc t (.out id c r), writer := none }
  | ret {s t id c r} : s.pc t = .out id c r →
      Step s { s with pc := setPc s.pc t .idle, hist := s.hist ++ [.ret id r] }

/-- States some schedule reaches. -/
inductive Reach : St σ A C R → Prop
  | init : Reach (start g)
  | step {s s'} : Reach s → Step g s s' → Reach s'

/-- The object without concurrency: a method runs at once. -/
def seqObj : Obj σ C R := ⟨g.init, fun s c r s' => ∃ acc, ReflTransGen (g.iter s c) g.start acc ∧ g.fin s c acc r s'⟩

/-- The call number a goroutine is working on. -/
def Pc.id? : Pc A C R → Option Nat
  | .idle => none
  | .want id _ => some id
  | .body id _ _ => some id
  | .held id _ _ => some id
  | .out id _ _ => some id

/-- The lock mode a goroutine holds. -/
def Pc.holds : Pc A C R → Option Bool
  | .body _ c _ => some (g.writes c)
  | .held _ c _ => some (g.writes c)
  | _ => none

/-- The call was invoked, has not returned. -/
def Pending (h : List (Event C R)) (id : Nat) (c : C) : Prop := Event.inv id c ∈ h ∧ ∀ r, Event.ret id r ∉ h

/-- What holds of one goroutine, given the linearization `S`. -/
def PcOk (s : St σ A C R) (S : List (Nat × C × R)) : Pc A C R → Prop
  | .idle => True
  | .want id c => Pending s.hist id c ∧ ∀ e ∈ S, e.1 ≠ id
  | .body id c acc => Pending s.hist id c ∧ (∀ e ∈ S, e.1 ≠ id) ∧ ReflTransGen (g.iter s.m c) g.start acc
  | .held id c r => Pending s.hist id c ∧ (id, c, r) ∈ S
  | .out id c r => Pending s.hist id c ∧ (id, c, r) ∈ S

structure Inv (s : St σ A C R) (S : List (Nat × C × R)) : Prop where
  lin : LinTo (seqObj g) s.hist S s.m
  pcs : ∀ t, PcOk g s S (s.pc t)
  ids : ∀ t t' id, (s.pc t).id? = some id → (s.pc t').id? = some id → t = t'
  fresh : ∀ id c, Event.inv id c ∈ s.hist → id < s.next
  freshRet : ∀ id r, Event.ret id r ∈ s.hist → id < s.next
  readers : ∀ t, t ∈ s.readers ↔ (s.pc t).holds g = some false
  rnodup : s.readers.Nodup
  writer : ∀ t, s.writer = some t ↔ (s.pc t).holds g = some true
  excl : s.writer ≠ none → s.readers = []

/-- Methods that read do not write. -/
def ReadsOnly : Prop := ∀ s c acc r s', g.writes c = false → g.fin s c acc r s' → s' = s

variable {g}

@[simp] theorem setPc_same (f : Nat → Pc A C R) (t : Nat) (p : Pc A C R) : setPc f t p t = p := by simp [setPc]
theorem setPc_ne (f : Nat → Pc A C R) {t t' : Nat} (p : Pc A C R) (h : t' ≠ t) : setPc f t p t' = f t' := by
  simp [setPc, h]

/-- Changing one goroutine's pc without changing its call number keeps the numbers distinct. -/
theorem ids_setPc {s : St σ A C R} {t : Nat} {p : Pc A C R}
    (hi : ∀ t t' id, (s.pc t).id? = some id → (s.pc t').id? = some id → t = t')
    (hp : ∀ id, p.id? = some id → (s.pc t).id? = some id) :
    ∀ t1 t2 id, (setPc s.pc t p t1).id? = some id → (setPc s.pc t p t2).id? = some id → t1 = t2 := by
  intro t1 t2 id h1 h2
  refine hi t1 t2 id ?_ ?_
  · by_cases h : t1 = t
    · subst h; simp at h1; exact hp id h1
    · rwa [setPc_ne _ _ h] at h1
  · by_cases h : t2 = t
    · subst h; simp at h2; exact hp id h2
    · rwa [setPc_ne _ _ h] at h2

theorem inv_init : Inv g (start g) [] where
  lin := LinTo.nil (seqObj g)
  pcs := fun t => by simp [start, PcOk]
  ids := fun t t' id h => by simp [start, Pc.id?] at h
  fresh := by simp [start]
  freshRet := by simp [start]
  readers := fun t => by simp [start, Pc.holds]
  rnodup := by simp [start]
  writer := fun t => by simp [start, Pc.holds]
  excl := by simp [start]

theorem PcOk.mono {s s' : St σ A C R} {S : List (Nat × C × R)} {p : Pc A C R}
    (h : PcOk g s S p) (hh : s'.hist = s.hist) (hm : s'.m = s.m) : PcOk g s' S p := by
  cases p <;> simp only [PcOk, Pending, hh, hm] at * <;> exact h

theorem inv_step (ro : ReadsOnly g) {s s' : St σ A C R} {S : List (Nat × C × R)} (i : Inv g s S) (st : Step g s s') :
    ∃ S', Inv g s' S' := by
  cases st with
  | @invoke t c ht =>
    have hS : ∀ e ∈ S, e.1 ≠ s.next := fun e he => by
      have := i.fresh _ _ (i.lin.invoked e he); omega
    refine ⟨S, i.lin.inv _ _ hS, ?_, ?_, ?_, ?_, ?_, i.rnodup, ?_, i.excl⟩
    · intro t'
      by_cases h : t' = t
      · subst h
        simp only [setPc_same, PcOk, Pending]
        refine ⟨⟨by simp, ?_⟩, hS⟩
        intro r hr
        simp at hr
        have := i.freshRet _ _ hr; omega
      · simp only [setPc_ne _ _ h]
        have := i.pcs t'
        cases hp : s.pc t' <;> simp only [hp, PcOk, Pending, List.mem_append, List.mem_singleton] at this ⊢
        · exact ⟨⟨.inl this.1.1, fun r hr => by
            rcases hr with hr | hr
            · exact this.1.2 r hr
            · cases hr⟩, this.2⟩
        · exact ⟨⟨.inl this.1.1, fun r hr => by
            rcases hr with hr | hr
            · exact this.1.2 r hr
            · cases hr⟩, this.2⟩
        · exact ⟨⟨.inl this.1.1, fun r hr => by
            rcases hr with hr | hr
            · exact this.1.2 r hr
            · cases hr⟩, this.2⟩
        · exact ⟨⟨.inl this.1.1, fun r hr => by
            rcases hr with hr | hr
            · exact this.1.2 r hr
            · cases hr⟩, this.2⟩
    · have key : ∀ t', t' ≠ t → (s.pc t').id? ≠ some s.next := by
        intro t' h e
        have := i.pcs t'
        cases hp : s.pc t' <;> simp only [hp, PcOk, Pending, Pc.id?] at this e <;> try cases e
        all_goals (have := i.fresh _ _ this.1.1; omega)
      intro t1 t2 id h1 h2
      by_cases e1 : t1 = t
      · by_cases e2 : t2 = t
        · rw [e1, e2]
        · subst e1
          simp only [setPc_same, Pc.id?] at h1
          simp only [setPc_ne _ _ e2] at h2
          cases h1
          exact absurd h2 (key t2 e2)
      · by_cases e2 : t2 = t
        · subst e2
          simp only [setPc_same, Pc.id?] at h2
          simp only [setPc_ne _ _ e1] at h1
          cases h2
          exact absurd h1 (key t1 e1)
        · simp only [setPc_ne _ _ e1] at h1
          simp only [setPc_ne _ _ e2] at h2
          exact i.ids t1 t2 id h1 h2
    · intro id c' h
      simp at h
      rcases h with h | ⟨rfl, _⟩
      · have := i.fresh _ _ h; simp; omega
      · simp
    · intro id r h
      simp at h
      have := i.freshRet _ _ h; simp; omega
    · intro t'
      by_cases h : t' = t
      · subst h; simp only [setPc_same, i.readers, ht, Pc.holds]
      · simp only [setPc_ne _ _ h, i.readers]
    · intro t'
      by_cases h : t' = t
      · subst h; simp only [setPc_same, i.writer, ht, Pc.holds]
      · simp only [setPc_ne _ _ h, i.writer]
  | @rlock t id c ht hm hw =>
    have hpt := i.pcs t
    rw [ht] at hpt
    refine ⟨S, i.lin, ?_, ids_setPc i.ids (by simp [ht, Pc.id?]), i.fresh, i.freshRet, ?_, ?_, ?_, ?_⟩
    · intro t'
      by_cases h : t' = t
      · subst h; simp only [setPc_same, PcOk]; exact ⟨hpt.1, hpt.2, .refl⟩
      · simp only [setPc_ne _ _ h]; exact (i.pcs t').mono rfl rfl
    · intro t'
      by_cases h : t' = t
      · subst h; simp [Pc.holds, hm]
      · simp [setPc_ne _ _ h, h, i.readers]
    · simp only [List.nodup_cons]
      refine ⟨?_, i.rnodup⟩
      rw [i.readers, ht]; simp [Pc.holds]
    · intro t'
      by_cases h : t' = t
      · subst h; simp [Pc.holds, hm, hw]
      · simp only [setPc_ne _ _ h, i.writer]
    · simp [hw]
  | @lock t id c ht hm hw hr =>
    have hpt := i.pcs t
    rw [ht] at hpt
    refine ⟨S, i.lin, ?_, ids_setPc i.ids (by simp [ht, Pc.id?]), i.fresh, i.freshRet, ?_, i.rnodup, ?_, ?_⟩
    · intro t'
      by_cases h : t' = t
      · subst h; simp only [setPc_same, PcOk]; exact ⟨hpt.1, hpt.2, .refl⟩
      · simp only [setPc_ne _ _ h]; exact (i.pcs t').mono rfl rfl
    · intro t'
      by_cases h : t' = t
      · subst h; simp [Pc.holds, hm, hr]
      · simp only [setPc_ne _ _ h, i.readers]
    · intro t'
      by_cases h : t' = t
      · subst h; simp [Pc.holds, hm]
      · have := i.writer t'
        rw [hw] at this
        simp only [setPc_ne _ _ h]
        rw [← this]
        simpa using fun e : t = t' => h e.symm
    · simp [hr]
  | @iter t id c acc acc' ht hc =>
    have hpt := i.pcs t
    rw [ht] at hpt
    refine ⟨S, i.lin, ?_, ids_setPc i.ids (by simp [ht, Pc.id?]), i.fresh, i.freshRet, ?_, i.rnodup, ?_, i.excl⟩
    · intro t'
      by_cases h : t' = t
      · subst h; simp only [setPc_same, PcOk]
        exact ⟨hpt.1, hpt.2.1, hpt.2.2.tail hc⟩
      · simp only [setPc_ne _ _ h]; exact (i.pcs t').mono rfl rfl
    · intro t'
      by_cases h : t' = t
      · subst h; simp only [setPc_same, i.readers, ht, Pc.holds]
      · simp only [setPc_ne _ _ h, i.readers]
    · intro t'
      by_cases h : t' = t
      · subst h; simp only [setPc_same, i.writer, ht, Pc.holds]
      · simp only [setPc_ne _ _ h, i.writer]
  | @access t id c acc r m' ht hf =>
    have hpt := i.pcs t
    rw [ht] at hpt
    have hstep : (seqObj g).step s.m c r m' := ⟨acc, hpt.2.2, hf⟩
    have hread : g.writes c = false → m' = s.m := fun h => ro _ _ _ _ _ h hf
    -- no other goroutine is in a body unless the map is unchanged
    have hother : ∀ t' id' c' acc', t' ≠ t → s.pc t' = .body id' c' acc' → m' = s.m := by
      intro t' id' c' acc' hne hp
      cases hm : g.writes c with
      | false => exact hread hm
      | true =>
        have hwt : s.writer = some t := (i.writer t).2 (by rw [ht, Pc.holds, hm])
        cases hm' : g.writes c' with
        | false =>
          have : t' ∈ s.readers := (i.readers t').2 (by rw [hp, Pc.holds, hm'])
          rw [i.excl (by rw [hwt]; simp)] at this
          simp at this
        | true =>
          have : s.writer = some t' := (i.writer t').2 (by rw [hp, Pc.holds, hm'])
          rw [hwt] at this; cases this; exact absurd rfl hne
    refine ⟨S ++ [(id, c, r)], i.lin.lin hpt.1.1 hpt.1.2 hpt.2.1 hstep, ?_,
      ids_setPc i.ids (by simp [ht, Pc.id?]), i.fresh, i.freshRet, ?_, i.rnodup, ?_, i.excl⟩
    · intro t'
      by_cases h : t' = t
      · subst h; simp only [setPc_same, PcOk]; exact ⟨hpt.1, by simp⟩
      · simp only [setPc_ne _ _ h]
        have hid : (s.pc t').id? ≠ some id := fun e => h (i.ids t' t id e (by rw [ht]; rfl))
        have hp' := i.pcs t'
        cases hp : s.pc t' with
        | idle => trivial
        | want id' c' =>
          rw [hp] at hp'
          refine ⟨hp'.1, fun e he => ?_⟩
          rcases List.mem_append.1 he with he | he
          · exact hp'.2 e he
          · simp at he; subst he; intro e; apply hid; rw [hp, Pc.id?, ← e]
        | body id' c' acc' =>
          rw [hp] at hp'
          refine ⟨hp'.1, fun e he => ?_, ?_⟩
          · rcases List.mem_append.1 he with he | he
            · exact hp'.2.1 e he
            · simp at he; subst he; intro e; apply hid; rw [hp, Pc.id?, ← e]
          · simp only; rw [hother t' id' c' acc' h hp]; exact hp'.2.2
        | held id' c' r' => rw [hp] at hp'; exact ⟨hp'.1, by simp [hp'.2]⟩
        | out id' c' r' => rw [hp] at hp'; exact ⟨hp'.1, by simp [hp'.2]⟩
    · intro t'
      by_cases h : t' = t
      · subst h; simp only [setPc_same, i.readers, ht, Pc.holds]
      · simp only [setPc_ne _ _ h, i.readers]
    · intro t'
      by_cases h : t' = t
      · subst h; simp only [setPc_same, i.writer, ht, Pc.holds]
      · simp only [setPc_ne _ _ h, i.writer]
  | @runlock t id c r ht hm =>
    have hpt := i.pcs t
    rw [ht] at hpt
    refine ⟨S, i.lin, ?_, ids_setPc i.ids (by simp [ht, Pc.id?]), i.fresh, i.freshRet, ?_,
      i.rnodup.erase t, ?_, ?_⟩
    · intro t'
      by_cases h : t' = t
      · subst h; simp only [setPc_same, PcOk]; exact hpt
      · simp only [setPc_ne _ _ h]; exact (i.pcs t').mono rfl rfl
    · intro t'
      rw [i.rnodup.mem_erase_iff, i.readers]
      by_cases h : t' = t
      · subst h; simp [Pc.holds]
      · simp [setPc_ne _ _ h, h]
    · intro t'
      by_cases h : t' = t
      · subst h
        simp only [setPc_same, i.writer, ht, Pc.holds, hm]
        simp
      · simp only [setPc_ne _ _ h, i.writer]
    · intro hw
      have := i.excl hw
      simp [this]
  | @unlock t id c r ht hm =>
    have hpt := i.pcs t
    rw [ht] at hpt
    have hwt : s.writer = some t := (i.writer t).2 (by rw [ht, Pc.holds, hm])
    refine ⟨S, i.lin, ?_, ids_setPc i.ids (by simp [ht, Pc.id?]), i.fresh, i.freshRet, ?_,
      i.rnodup, ?_, by simp⟩
    · intro t'
      by_cases h : t' = t
      · subst h; simp only [setPc_same, PcOk]; exact hpt
      · simp only [setPc_ne _ _ h]; exact (i.pcs t').mono rfl rfl
    · intro t'
      by_cases h : t' = t
      · subst h
        simp only [setPc_same, i.readers, ht, Pc.holds, hm]
        simp
      · simp only [setPc_ne _ _ h, i.readers]
    · intro t'
      by_cases h : t' = t
      · subst h; simp [Pc.holds]
      · simp only [setPc_ne _ _ h]
        rw [← i.writer t', hwt]
        simpa using fun e : t = t' => h e.symm
  | @ret t id c r ht =>
    have hpt := i.pcs t
    rw [ht] at hpt
    refine ⟨S, i.lin.ret hpt.2, ?_, ids_setPc i.ids (by simp [Pc.id?]), ?_, ?_, ?_, i.rnodup, ?_, i.excl⟩
    · intro t'
      by_cases h : t' = t
      · subst h; simp only [setPc_same, PcOk]
      · simp only [setPc_ne _ _ h]
        have hid : (s.pc t').id? ≠ some id := fun e => h (i.ids t' t id e (by rw [ht]; rfl))
        have hpend : ∀ id' c', (s.pc t').id? = some id' → Pending s.hist id' c' →
            Pending (s.hist ++ [.ret id r]) id' c' := by
          intro id' c' e hp
          refine ⟨by simp [hp.1], fun r' hr' => ?_⟩
          simp at hr'
          rcases hr' with hr' | ⟨rfl, _⟩
          · exact hp.2 r' hr'
          · exact hid e
        have hp' := i.pcs t'
        cases hp : s.pc t' with
        | idle => trivial
        | want id' c' => rw [hp] at hp'; exact ⟨hpend _ _ (by rw [hp]; rfl) hp'.1, hp'.2⟩
        | body id' c' acc' => rw [hp] at hp'; exact ⟨hpend _ _ (by rw [hp]; rfl) hp'.1, hp'.2⟩
        | held id' c' r' => rw [hp] at hp'; exact ⟨hpend _ _ (by rw [hp]; rfl) hp'.1, hp'.2⟩
        | out id' c' r' => rw [hp] at hp'; exact ⟨hpend _ _ (by rw [hp]; rfl) hp'.1, hp'.2⟩
    · intro id' c' h
      simp at h; exact i.fresh _ _ h
    · intro id' r' h
      simp at h
      rcases h with h | ⟨rfl, _⟩
      · exact i.freshRet _ _ h
      · exact i.fresh _ _ hpt.1.1
    · intro t'
      by_cases h : t' = t
      · subst h; simp only [setPc_same, i.readers, ht, Pc.holds]
      · simp only [setPc_ne _ _ h, i.readers]
    · intro t'
      by_cases h : t' = t
      · subst h; simp only [setPc_same, i.writer, ht, Pc.holds]
      · simp only [setPc_ne _ _ h, i.writer]

theorem Reach.inv (ro : ReadsOnly g) {s : St σ A C R} (h : Reach g s) : ∃ S, Inv g s S := by
  induction h with
  | init => exact ⟨[], inv_init⟩
  | step _ st ih =>
    obtain ⟨S, i⟩ := ih
    exact inv_step ro i st

end Verif.Conc.RW
