import Verif.SyncPanic.Spec
/-!
# Runs of the map with bad keys
-/
set_option linter.unusedSectionVars false
namespace Verif.SyncPanic
open Verif.Conc Verif.SyncMap

variable {K V : Type} [DecidableEq K] [DecidableEq V] [Inhabited V] {bad : K → Prop}

theorem mode_write {c : Call K V} : mode c = .write ↔ Writes c := by cases c <;> simp [mode, Writes]
theorem mode_read {c : Call K V} : mode c = .read ↔ ¬ Writes c := by cases c <;> simp [mode, Writes]

/-- Every step is a step of the map without bad keys, or none at all. -/
theorem st_step {s s' : PSt K V} (h : PStep bad s s') : s'.st = s.st ∨ SyncMap.Step s.st s'.st := by
  cases h with
  | invoke h => exact Or.inr (.invoke h)
  | rlock h h1 h2 h3 => exact Or.inr (.rlock h h1 h2)
  | announce h h1 h2 h3 => exact Or.inl rfl
  | lock h h1 h2 h3 h4 => exact Or.inr (.lock h h1 h2 h4)
  | iter h h1 h2 h3 => exact Or.inr (.iter h h1 h2 h3)
  | access h h1 h2 => exact Or.inr (.access h h2)
  | runlock h h1 => exact Or.inr (.runlock h h1)
  | unlock h h1 => exact Or.inr (.unlock h h1)
  | ret h => exact Or.inr (.ret h)

theorem PReach.st {s : PSt K V} (h : PReach bad s) : SyncMap.Reach s.st := by
  induction h with
  | init => exact .init
  | step _ hs ih =>
    rcases st_step hs with h | h
    · rw [h]; exact ih
    · exact ih.step h

theorem PSteps.reach {s s' : PSt K V} (h : PReach bad s) (hs : PSteps bad s s') : PReach bad s' := by
  induction hs with
  | refl => exact h
  | step _ h2 ih => exact ih.step h2

theorem PSteps.trans {s s' s'' : PSt K V} (h : PSteps bad s s') (h2 : PSteps bad s' s'') : PSteps bad s s'' := by
  induction h2 with
  | refl => exact h
  | step _ h3 ih => exact ih.step h3

/-- The announced writer waits. -/
theorem pend_want {s : PSt K V} (h : PReach bad s) {t : Nat} (hp : s.pend = some t) :
    s.st.writer = none ∧ ∃ id c, s.st.pc t = .want id c ∧ mode c = .write := by
  induction h generalizing t with
  | init => cases hp
  | step hr hs ih =>
    cases hs <;> simp only [setPc] at * <;> grind

/-- What other goroutines do leaves a goroutine where it is. -/
theorem crashed_step {s s' : PSt K V} (hs : PStep bad s s') {t : Nat} {c : Call K V} (hc : Crashed bad s t c) :
    Crashed bad s' t c := by
  obtain ⟨⟨id, acc, h1⟩, h2⟩ := hc
  refine ⟨?_, h2⟩
  have hk : c ≠ .keys ∧ c ≠ .values := by
    obtain ⟨k, hk, -⟩ := h2
    constructor <;> rintro rfl <;> cases hk
  cases hs <;> simp only [setPc] at * <;> grind

theorem crashed_steps {s s' : PSt K V} (hs : PSteps bad s s') {t : Nat} {c : Call K V} (hc : Crashed bad s t c) :
    Crashed bad s' t c := by
  induction hs with
  | refl => exact hc
  | step _ h2 ih => exact crashed_step h2 ih

/-- A goroutine with the lock whose call does not panic can leave, and nothing else changes. -/
theorem leave {s : PSt K V} (hr : PReach bad s) {t : Nat} {md : Mode} (hh : (s.st.pc t).holds = some md)
    (hc : ∀ c, ¬ Crashed bad s t c) :
    ∃ s', PSteps bad s s' ∧ (s'.st.pc t).holds = none ∧ s'.st.pc t ≠ .idle ∧ (∀ id c, s'.st.pc t ≠ .want id c) ∧
      (∀ u, u ≠ t → s'.st.pc u = s.st.pc u) ∧ s'.pend = s.pend ∧
      (md = .read → s'.st.readers = s.st.readers.erase t ∧ s'.st.writer = s.st.writer) ∧
      (md = .write → s'.st.readers = s.st.readers ∧ s'.st.writer = none) := by
  -- from `held`
  have held : ∀ (s : PSt K V) (id : Nat) (c : Call K V) (r : Res K V), s.st.pc t = .held id c r → mode c = md →
      ∃ s', PSteps bad s s' ∧ (s'.st.pc t).holds = none ∧ s'.st.pc t ≠ .idle ∧ (∀ id c, s'.st.pc t ≠ .want id c) ∧
      (∀ u, u ≠ t → s'.st.pc u = s.st.pc u) ∧ s'.pend = s.pend ∧
      (md = .read → s'.st.readers = s.st.readers.erase t ∧ s'.st.writer = s.st.writer) ∧
      (md = .write → s'.st.readers = s.st.readers ∧ s'.st.writer = none) := by
    intro s id c r hp hm
    cases md with
    | read =>
      refine ⟨_, (PSteps.refl s).step (.runlock hp hm), ?_⟩
      simp [Pc.holds]
      intro u hu; simp [setPc, hu]
    | write =>
      refine ⟨_, (PSteps.refl s).step (.unlock hp hm), ?_⟩
      simp [Pc.holds]
      intro u hu; simp [setPc, hu]
  -- from `body`, by the number of entries not yet visited
  have body : ∀ (n : Nat) (s : PSt K V) (id : Nat) (c : Call K V) (acc : List (K × V)),
      (s.st.m.filter (fun e => decide (e ∉ acc))).length = n →
      s.st.pc t = .body id c acc → mode c = md → ¬ Panics bad c →
      ∃ s', PSteps bad s s' ∧ (s'.st.pc t).holds = none ∧ s'.st.pc t ≠ .idle ∧ (∀ id c, s'.st.pc t ≠ .want id c) ∧
      (∀ u, u ≠ t → s'.st.pc u = s.st.pc u) ∧ s'.pend = s.pend ∧
      (md = .read → s'.st.readers = s.st.readers.erase t ∧ s'.st.writer = s.st.writer) ∧
      (md = .write → s'.st.readers = s.st.readers ∧ s'.st.writer = none) := by
    intro n
    induction n using Nat.strongRecOn with
    | ind n ih =>
      intro s id c acc hn hp hm hnp
      cases hf : finish s.st.m c acc with
      | some rm =>
        obtain ⟨r, m'⟩ := rm
        have st1 : PStep bad s
            { s with st := { s.st with pc := setPc s.st.pc t (.held id c r), m := m' } } := .access hp hnp hf
        obtain ⟨s', a1, a2, a3, a4, a5, a6, a7⟩ := held
          { s with st := { s.st with pc := setPc s.st.pc t (.held id c r), m := m' } } id c r (by simp) hm
        refine ⟨s', ((PSteps.refl s).step st1).trans a1, a2, a3, a4, fun u hu => ?_, a6, a7⟩
        rw [a5 u hu]; simp [setPc, hu]
      | none =>
        have hc : c = .keys ∨ c = .values := by cases c <;> simp [finish] at hf ⊢
        have : ∃ e ∈ s.st.m, e ∉ acc := by
          by_contra hall
          have hall : ∀ e ∈ s.st.m, e ∈ acc := by
            intro e he; by_contra hn; exact hall ⟨e, he, hn⟩
          rcases hc with rfl | rfl <;> simp [finish] at hf <;> obtain ⟨a, b, h1, h2⟩ := hf <;>
            exact h2 (hall _ h1)
        obtain ⟨e, he, hne⟩ := this
        have st1 : PStep bad s { s with st := { s.st with pc := setPc s.st.pc t (.body id c (acc ++ [e])) } } :=
          .iter hp hc he hne
        have hlt : (s.st.m.filter (fun x => decide (x ∉ acc ++ [e]))).length < n := by
          rw [← hn]
          have h1 : s.st.m.filter (fun x => decide (x ∉ acc ++ [e])) =
              (s.st.m.filter (fun x => decide (x ∉ acc))).filter (fun x => decide (x ≠ e)) := by
            rw [List.filter_filter]
            congr 1
            funext x
            by_cases h1 : x ∈ acc <;> by_cases h2 : x = e <;> simp [h1, h2]
          rw [h1]
          apply List.length_filter_lt_length_iff_exists.2
          exact ⟨e, by simp [he, hne], by simp⟩
        obtain ⟨s', a1, a2, a3, a4, a5, a6, a7⟩ := ih _ hlt
          { s with st := { s.st with pc := setPc s.st.pc t (.body id c (acc ++ [e])) } } id c (acc ++ [e]) rfl
          (by simp) hm hnp
        refine ⟨s', ((PSteps.refl s).step st1).trans a1, a2, a3, a4, fun u hu => ?_, a6, a7⟩
        rw [a5 u hu]; simp [setPc, hu]
  cases hp : s.st.pc t with
  | idle => rw [hp] at hh; cases hh
  | want => rw [hp] at hh; cases hh
  | out => rw [hp] at hh; cases hh
  | held id c r =>
    rw [hp] at hh
    exact held s id c r hp (Option.some.inj hh)
  | body id c acc =>
    rw [hp] at hh
    exact body _ s id c acc rfl hp (Option.some.inj hh) (fun hb => hc c ⟨⟨id, acc, hp⟩, hb⟩)

theorem crashed_of_pc {s s' : PSt K V} {t : Nat} {c : Call K V} (h : s'.st.pc t = s.st.pc t)
    (hc : Crashed bad s' t c) : Crashed bad s t c := by
  obtain ⟨⟨id, acc, h1⟩, h2⟩ := hc
  exact ⟨⟨id, acc, h ▸ h1⟩, h2⟩

/-- A goroutine past its access can return. -/
theorem out_returns {s : PSt K V} {t : Nat} (h1 : (s.st.pc t).holds = none) (h2 : ∀ id c, s.st.pc t ≠ .want id c) :
    CanReturn bad s t := by
  cases hp : s.st.pc t with
  | idle => exact ⟨s, .refl s, hp⟩
  | want id c => exact absurd hp (h2 id c)
  | body => rw [hp] at h1; cases h1
  | held => rw [hp] at h1; cases h1
  | out id c r => exact ⟨_, (PSteps.refl s).step (.ret hp), by simp⟩

/-- A goroutine with the lock whose call does not panic can return. -/
theorem holds_returns {s : PSt K V} (hr : PReach bad s) {t : Nat} {md : Mode} (hh : (s.st.pc t).holds = some md)
    (hc : ∀ c, ¬ Crashed bad s t c) : CanReturn bad s t := by
  obtain ⟨s', a1, a2, -, a4, -⟩ := leave hr hh hc
  obtain ⟨s'', b1, b2⟩ := out_returns (bad := bad) a2 a4
  exact ⟨s'', a1.trans b1, b2⟩

/-- The readers can leave. -/
theorem drain : ∀ (l : List Nat) {s : PSt K V}, PReach bad s → s.st.readers = l →
    (∀ u c, ¬ Crashed bad s u c) →
    ∃ s', PSteps bad s s' ∧ s'.st.readers = [] ∧ s'.pend = s.pend ∧ s'.st.writer = s.st.writer ∧
      (∀ u c, ¬ Crashed bad s' u c) ∧ ∀ u id c, s.st.pc u = .want id c → s'.st.pc u = .want id c := by
  intro l
  induction l with
  | nil => intro s hr h hc; exact ⟨s, .refl s, h, rfl, rfl, hc, fun _ _ _ h => h⟩
  | cons t l ih =>
    intro s hr h hc
    obtain ⟨S, i⟩ := hr.st.inv
    have hh := (i.readers t).1 (by rw [h]; simp)
    obtain ⟨s', a1, a2, a3, a4, a5, a6, a7, -⟩ := leave hr hh (hc t)
    have hc' : ∀ u c, ¬ Crashed bad s' u c := by
      intro u c hu
      by_cases e : u = t
      · subst e
        obtain ⟨⟨id, acc, hu⟩, -⟩ := hu
        rw [hu] at a2; cases a2
      · exact hc u c (crashed_of_pc (a5 u e) hu)
    obtain ⟨s'', b1, b2, b3, b4, b5, b6⟩ := ih (a1.reach hr) (by rw [(a7 rfl).1, h]; simp) hc'
    refine ⟨s'', a1.trans b1, b2, by rw [b3, a6], by rw [b4, (a7 rfl).2], b5, fun u id c hu => b6 u id c ?_⟩
    rw [a5 u, hu]
    rintro rfl
    rw [hu] at hh; cases hh

/-- The writer can leave. -/
theorem wleave {s : PSt K V} (hr : PReach bad s) (hc : ∀ u c, Crashed bad s u c → ¬ Writes c) :
    ∃ s', PSteps bad s s' ∧ s'.pend = s.pend ∧ s'.st.writer = none ∧
      (∀ u c, Crashed bad s' u c → Crashed bad s u c) ∧ ∀ u id c, s.st.pc u = .want id c → s'.st.pc u = .want id c := by
  obtain ⟨S, i⟩ := hr.st.inv
  cases hw : s.st.writer with
  | none => exact ⟨s, .refl s, rfl, hw, fun _ _ h => h, fun _ _ _ h => h⟩
  | some t =>
    have hh := (i.writer t).1 hw
    have hct : ∀ c, ¬ Crashed bad s t c := by
      rintro c h
      refine hc t c h (mode_write.1 ?_)
      obtain ⟨⟨id, acc, h⟩, -⟩ := h
      rw [h] at hh; exact Option.some.inj hh
    obtain ⟨s', a1, a2, a3, a4, a5, a6, -, a7⟩ := leave hr hh hct
    refine ⟨s', a1, a6, (a7 rfl).2, fun u c hu => ?_, fun u id c hu => ?_⟩
    · by_cases e : u = t
      · subst e
        obtain ⟨⟨id, acc, hu⟩, -⟩ := hu
        rw [hu] at a2; cases a2
      · exact crashed_of_pc (a5 u e) hu
    · rw [a5 u, hu]
      rintro rfl
      rw [hu] at hh; cases hh

/-- The announced writer gets the lock and leaves, if nobody has panicked. -/
theorem plock {s : PSt K V} (hr : PReach bad s) (hc : ∀ u c, ¬ Crashed bad s u c) {t : Nat} (hp : s.pend = some t)
    (hb : ∀ c, callOf (s.st.pc t) = some c → ¬ Panics bad c) :
    ∃ s', PSteps bad s s' ∧ s'.pend = none ∧ (s'.st.pc t).holds = none ∧ (∀ id c, s'.st.pc t ≠ .want id c) ∧
      (∀ u c, ¬ Crashed bad s' u c) ∧ s'.st.writer = none ∧
      ∀ u id c, u ≠ t → s.st.pc u = .want id c → s'.st.pc u = .want id c := by
  obtain ⟨hw, id, c, ht, hm⟩ := pend_want hr hp
  obtain ⟨s1, a1, a2, a3, a4, a5, a6⟩ := drain _ hr rfl hc
  have st2 : PStep bad s1
      { st := { s1.st with pc := setPc s1.st.pc t (.body id c []), writer := some t }, pend := none } :=
    .lock (a6 t id c ht) hm (by rw [a4, hw]) (by rw [a3, hp]) a2
  have hnp : ¬ Panics bad c := hb c (by rw [ht]; rfl)
  have hc2 : ∀ u c', ¬ Crashed bad
      { st := { s1.st with pc := setPc s1.st.pc t (.body id c []), writer := some t }, pend := none } u c' := by
    intro u c' hu
    by_cases e : u = t
    · subst e
      obtain ⟨⟨id', acc, hu⟩, hpn⟩ := hu
      simp at hu
      exact hnp (hu.2.1 ▸ hpn)
    · exact a5 u c' (crashed_of_pc (by simp [setPc, e]) hu)
  obtain ⟨s3, b1, b2, b3, b4, b5, b6, -, b7⟩ := leave (a1.reach hr |>.step st2) (t := t) (md := .write)
    (by simp [Pc.holds, hm]) (hc2 t)
  refine ⟨s3, (a1.step st2).trans b1, b6, b2, b4, fun u c' hu => ?_, (b7 rfl).2, fun u id' c' hne hu => ?_⟩
  · by_cases e : u = t
    · subst e
      obtain ⟨⟨id, acc, hu⟩, -⟩ := hu
      rw [hu] at b2; cases b2
    · exact hc2 u c' (crashed_of_pc (b5 u e) hu)
  · rw [b5 u hne]
    simp [setPc, hne, a6 u id' c' hu]

/-- Nobody in the way: the call can return. -/
theorem want_returns {s : PSt K V} (hr : PReach bad s) {t id : Nat} {c : Call K V} (ht : s.st.pc t = .want id c)
    (hnp : ¬ Panics bad c) (hb : ¬ Blocked bad s t c) : CanReturn bad s t := by
  simp only [Blocked, not_or] at hb
  obtain ⟨hb1, hb2, hb3⟩ := hb
  have hcw : ∀ u c', Crashed bad s u c' → ¬ Writes c' := fun u c' h1 h2 => hb1 ⟨u, c', h1, h2⟩
  obtain ⟨s1, a1, a2, a3, a4, a5⟩ := wleave hr hcw
  have hr1 := a1.reach hr
  by_cases hrd : ¬ Writes c ∧ s.pend = none
  · -- a read with no writer waiting
    have st2 : PStep bad s1
        { s1 with st := { s1.st with pc := setPc s1.st.pc t (.body id c []), readers := t :: s1.st.readers } } :=
      .rlock (a5 t id c ht) (mode_read.2 hrd.1) a3 (by rw [a2, hrd.2])
    obtain ⟨s3, b1, b2⟩ := holds_returns (bad := bad) (hr1.step st2) (t := t) (md := .read)
      (by simp [Pc.holds, mode_read.2 hrd.1]) (by
        rintro c' ⟨⟨id', acc, hu⟩, hpn⟩
        simp at hu
        exact hnp (hu.2.1 ▸ hpn))
    exact ⟨s3, (a1.step st2).trans b1, b2⟩
  · have hnc : ∀ u c', ¬ Crashed bad s1 u c' := by
      intro u c' hu
      refine hb2 ⟨⟨u, c', a4 u c' hu⟩, ?_⟩
      by_cases hw : Writes c
      · exact Or.inl hw
      · exact Or.inr (fun hp => hrd ⟨hw, hp⟩)
    -- let the writer that is next go first
    have hnext : (s1.pend = some t) ∨ ∃ s2, PSteps bad s1 s2 ∧ s2.pend = none ∧ s2.st.writer = none ∧
        (∀ u c, ¬ Crashed bad s2 u c) ∧ s2.st.pc t = .want id c := by
      cases hp : s1.pend with
      | none => exact Or.inr ⟨s1, .refl s1, hp, a3, hnc, a5 t id c ht⟩
      | some w =>
        by_cases hwt : w = t
        · exact Or.inl (by rw [hwt])
        · right
          obtain ⟨-, id', c', hw', -⟩ := pend_want hr (by rw [← a2, hp] : s.pend = some w)
          obtain ⟨s2, b1, b2, b3, b4, b5, b6, b7⟩ := plock hr1 hnc hp (by
            rw [a5 w id' c' hw']
            intro c'' hcc
            cases hcc
            intro hpn
            exact hb3 ⟨w, c', hwt, by rw [← a2, hp], by rw [hw']; rfl, hpn⟩)
          exact ⟨s2, b1, b2, b6, b5, b7 t id c (Ne.symm hwt) (a5 t id c ht)⟩
    by_cases hw : Writes c
    · -- get into the `pend` position
      have hpos : ∃ s2, PSteps bad s1 s2 ∧ s2.pend = some t ∧ (∀ u c, ¬ Crashed bad s2 u c) ∧
          s2.st.pc t = .want id c := by
        rcases hnext with h | ⟨s2, b1, b2, b3, b4, b5⟩
        · exact ⟨s1, .refl s1, h, hnc, a5 t id c ht⟩
        · exact ⟨_, b1.step (.announce b5 (mode_write.2 hw) b3 b2), rfl, b4, b5⟩
      obtain ⟨s2, b1, b2, b3, b4⟩ := hpos
      obtain ⟨s3, d1, -, d3, d4, -⟩ := plock (b1.reach hr1) b3 b2 (by
        rw [b4]; intro c' hcc; cases hcc; exact hnp)
      obtain ⟨s4, e1, e2⟩ := out_returns (bad := bad) d3 d4
      exact ⟨s4, ((a1.trans b1).trans d1).trans e1, e2⟩
    · rcases hnext with h | ⟨s2, b1, b2, b3, b4, b5⟩
      · obtain ⟨-, id', c', hw', hm⟩ := pend_want hr1 h
        rw [a5 t id c ht] at hw'
        cases hw'
        exact absurd (mode_write.1 hm) hw
      · have st2 : PStep bad s2
            { s2 with st := { s2.st with pc := setPc s2.st.pc t (.body id c []), readers := t :: s2.st.readers } } :=
          .rlock b5 (mode_read.2 hw) b3 b2
        obtain ⟨s3, d1, d2⟩ := holds_returns (bad := bad) ((b1.reach hr1).step st2) (t := t) (md := .read)
          (by simp [Pc.holds, mode_read.2 hw]) (by
            rintro c' ⟨⟨id', acc, hu⟩, hpn⟩
            simp at hu
            exact hnp (hu.2.1 ▸ hpn))
        exact ⟨s3, ((a1.trans b1).step st2).trans d1, d2⟩

/-- Once blocked, always blocked. -/
theorem blocked_step {s s' : PSt K V} (hr : PReach bad s) (hs : PStep bad s s') {t id : Nat} {c : Call K V}
    (ht : s.st.pc t = .want id c) (hb : Blocked bad s t c) : s'.st.pc t = .want id c ∧ Blocked bad s' t c := by
  obtain ⟨S, i⟩ := hr.st.inv
  have hh : ∀ u c', Crashed bad s u c' → (s.st.pc u).holds = some (mode c') := by
    rintro u c' ⟨⟨id', acc, hu⟩, -⟩
    rw [hu]; rfl
  rcases hb with ⟨u, c', hc, hw⟩ | ⟨⟨u, c', hc⟩, hw⟩ | ⟨w, c', hne, hp, hcw, hpn⟩
  · have hwr : s.st.writer = some u := (i.writer u).2 (by rw [hh u c' hc, mode_write.2 hw])
    refine ⟨?_, Or.inl ⟨u, c', crashed_step hs hc, hw⟩⟩
    cases hs <;> simp only [setPc] at * <;> grind
  · cases hm : mode c' with
    | write =>
      have hwr : s.st.writer = some u := (i.writer u).2 (by rw [hh u c' hc, hm])
      refine ⟨?_, Or.inl ⟨u, c', crashed_step hs hc, mode_write.1 hm⟩⟩
      cases hs <;> simp only [setPc] at * <;> grind
    | read =>
      have hrd : u ∈ s.st.readers := (i.readers u).2 (by rw [hh u c' hc, hm])
      have hne : s.st.readers ≠ [] := by intro h; rw [h] at hrd; cases hrd
      have hmw : Writes c → mode c = .write := mode_write.2
      have hmr : mode c = .read → ¬ Writes c := mode_read.1
      have key : s'.st.pc t = .want id c ∧ (Writes c ∨ s'.pend ≠ none) := by
        cases hs <;> simp only [setPc] at * <;> grind
      exact ⟨key.1, Or.inr (Or.inl ⟨⟨u, c', crashed_step hs hc⟩, key.2⟩)⟩
  · obtain ⟨hwn, id', c'', hw', hm⟩ := pend_want hr hp
    rw [hw'] at hcw
    cases hcw
    have key : s'.st.pc t = .want id c ∧ ((s'.pend = some w ∧ s'.st.pc w = .want id' c') ∨
        (s'.st.pc w = .body id' c' [])) := by
      cases hs <;> simp only [setPc] at * <;> grind
    refine ⟨key.1, ?_⟩
    rcases key.2 with ⟨h1, h2⟩ | h
    · exact Or.inr (Or.inr ⟨w, c', hne, h1, by rw [h2]; rfl, hpn⟩)
    · exact Or.inl ⟨w, c', ⟨⟨id', [], h⟩, hpn⟩, mode_write.1 hm⟩

theorem blocked_steps {s s' : PSt K V} (hr : PReach bad s) (hs : PSteps bad s s') {t id : Nat} {c : Call K V}
    (ht : s.st.pc t = .want id c) (hb : Blocked bad s t c) : s'.st.pc t = .want id c ∧ Blocked bad s' t c := by
  induction hs with
  | refl => exact ⟨ht, hb⟩
  | step h1 h2 ih => exact blocked_step (h1.reach hr) h2 ih.1 ih.2

end Verif.SyncPanic
