import Verif.SyncPanic.Lemmas
/-!
# C96: the concurrent map and keys that cannot be hashed
-/
set_option linter.unusedSectionVars false
namespace Verif.SyncPanic
open Verif.Conc Verif.SyncMap

variable {K V : Type} [DecidableEq K] [DecidableEq V] [Inhabited V] {bad : K → Prop}

/-- The full statement: a call that does not panic itself can return, whatever other goroutines did. -/
def C96_full : Prop := ∀ (bad : Nat → Prop) (s : PSt Nat Nat), PReach bad s → ∀ t c,
  callOf (s.st.pc t) = some c → ¬ Panics bad c → CanReturn bad s t

/-- Which calls panic: those that look a bad key up, and no others. -/
theorem C96_which (c : Call K V) : Panics bad c ↔
    ∃ k, bad k ∧ (c = .get k ∨ c = .has k ∨ (∃ v, c = .set k v) ∨ c = .delete k) := by
  cases c <;> simp [Panics, keyOf, and_comm]

/-- What is left is still a linearizable map without races: calls that panicked count as calls that never
returned, and they have no effect. -/
theorem C96_safe {s : PSt K V} (h : PReach bad s) : Linearizable mapObj s.st.hist ∧
    ∀ t t' id id' c c' acc acc', s.st.pc t = .body id c acc → s.st.pc t' = .body id' c' acc' → Writes c → t' = t := by
  obtain ⟨S, i⟩ := h.st.inv
  refine ⟨⟨S, _, i.lin⟩, ?_⟩
  intro t t' id id' c c' acc acc' hp hp' hw
  have hwt : s.st.writer = some t := (i.writer t).2 (by rw [hp, Pc.holds, mode_write.2 hw])
  cases hm : mode c' with
  | read =>
    have : t' ∈ s.st.readers := (i.readers t').2 (by rw [hp', Pc.holds, hm])
    rw [i.excl (by rw [hwt]; simp)] at this
    simp at this
  | write =>
    have : s.st.writer = some t' := (i.writer t').2 (by rw [hp', Pc.holds, hm])
    rw [hwt] at this; cases this; rfl

/-- Exactly when a call that waits for the lock can still return: when no panic is in the way. If one is, the call
waits for ever, in every schedule. -/
theorem C96_exact {s : PSt K V} (hr : PReach bad s) {t id : Nat} {c : Call K V} (ht : s.st.pc t = .want id c)
    (hnp : ¬ Panics bad c) : (CanReturn bad s t ↔ ¬ Blocked bad s t c) ∧
    (Blocked bad s t c → ∀ s', PSteps bad s s' → s'.st.pc t = .want id c) := by
  refine ⟨⟨?_, want_returns hr ht hnp⟩, fun hb s' hs => (blocked_steps hr hs ht hb).1⟩
  rintro ⟨s', hs, h⟩ hb
  have := (blocked_steps hr hs ht hb).1
  rw [h] at this; cases this

/-- After a `Set` or `Delete` that panicked, no call ever gets the lock again: whoever is in a call waits for ever
or is past its access, and the content never changes. -/
theorem C96_writer_panics {s s' : PSt K V} (hr : PReach bad s) {u : Nat} {c' : Call K V} (hc : Crashed bad s u c')
    (hw : Writes c') (hs : PSteps bad s s') :
    s'.st.m = s.st.m ∧ ∀ t id c acc, s'.st.pc t = .body id c acc → t = u := by
  induction hs with
  | refl => exact ⟨rfl, fun t id c acc h => by
      obtain ⟨⟨id', acc', h'⟩, -⟩ := hc
      exact (C96_safe hr).2 u t id' id c' c acc' acc h' h hw⟩
  | @step s1 s2 h1 h2 ih =>
    have hr1 := h1.reach hr
    have hr2 := hr1.step h2
    have hc2 := crashed_step h2 (crashed_steps h1 hc)
    have hc1 := crashed_steps h1 hc
    have huniq := ih.2
    refine ⟨?_, fun t id c acc h => ?_⟩
    · rw [← ih.1]
      cases h2 with
      | @access t id c acc r m' ha hb hf =>
        have := huniq t id c acc ha
        subst this
        obtain ⟨⟨id', acc', h'⟩, hp⟩ := hc1
        rw [ha] at h'; cases h'
        exact absurd hp hb
      | _ => rfl
    · obtain ⟨⟨id', acc', h'⟩, -⟩ := hc2
      exact (C96_safe hr2).2 u t id' id c' c acc' acc h' h hw

/-- After a `Get` or `Has` that panicked, the content never changes: no writer ever gets the lock. -/
theorem C96_reader_panics {s s' : PSt K V} (hr : PReach bad s) {u : Nat} {c' : Call K V} (hc : Crashed bad s u c')
    (hw : ¬ Writes c') (hs : PSteps bad s s') :
    s'.st.m = s.st.m ∧ ∀ t id c acc, s'.st.pc t = .body id c acc → ¬ Writes c := by
  have no : ∀ s1, PReach bad s1 → Crashed bad s1 u c' → ∀ t id c acc, s1.st.pc t = .body id c acc → ¬ Writes c := by
    intro s1 hr1 hc1 t id c acc ht hwc
    obtain ⟨⟨id', acc', h'⟩, -⟩ := hc1
    have := (C96_safe hr1).2 t u id id' c c' acc acc' ht h' hwc
    subst this
    rw [h'] at ht; cases ht
    exact hw hwc
  induction hs with
  | refl => exact ⟨rfl, no _ hr hc⟩
  | @step s1 s2 h1 h2 ih =>
    have hr1 := h1.reach hr
    have hc1 := crashed_steps h1 hc
    refine ⟨?_, no _ (hr1.step h2) (crashed_step h2 hc1)⟩
    rw [← ih.1]
    cases h2 with
    | @access t id c acc r m' ha hb hf =>
      have := no s1 hr1 hc1 t id c acc ha
      obtain ⟨S, i⟩ := hr1.st.inv
      have hpt := i.pcs t
      rw [ha] at hpt
      exact (finish_spec i.keys hpt.2.2.1 hpt.2.2.2 hf).2.2 (mode_read.2 this)
    | _ => rfl

/-- A `Set` with a bad key, recovered from, blocks `Size` for ever. -/
theorem C96_refuted : ¬ C96_full ∧ ∃ s : PSt Nat Nat, PReach (· = 0) s ∧ Crashed (· = 0) s 0 (.set 0 7) ∧
    ∀ s', PSteps (· = 0) s s' → s'.st.pc 1 = .want 1 .size := by
  have r := PReach.init (bad := (· = 0)) (K := Nat) (V := Nat)
  have r := r.step (.invoke (t := 0) (c := .set 0 7) rfl)
  have r := r.step (.announce (t := 0) (id := 0) (c := .set 0 7) rfl rfl rfl rfl)
  have r := r.step (.lock (t := 0) (id := 0) (c := .set 0 7) rfl rfl rfl rfl rfl)
  have r := r.step (.invoke (t := 1) (c := .size) rfl)
  have hnp : ¬ Panics (· = 0) (Call.size : Call Nat Nat) := by rintro ⟨k, h, -⟩; cases h
  have hx := C96_exact r (t := 1) (id := 1) (c := .size) rfl hnp
  refine ⟨fun hf => (hx.1.1 (hf _ _ r 1 .size rfl hnp)) ?_, _, r, ⟨⟨0, [], rfl⟩, ⟨0, rfl, rfl⟩⟩, hx.2 ?_⟩ <;>
    exact Or.inl ⟨0, .set 0 7, ⟨⟨0, [], rfl⟩, ⟨0, rfl, rfl⟩⟩, trivial⟩

/-- What does hold: as long as no call with a bad key is in progress, every call can return. Missing from the full
statement: what comes after such a call, see `C96_exact`. -/
theorem C96_partial {s : PSt K V} (hr : PReach bad s) (hc : ∀ u c, callOf (s.st.pc u) = some c → ¬ Panics bad c)
    (t : Nat) : CanReturn bad s t := by
  have hcr : ∀ u c, ¬ Crashed bad s u c := by
    rintro u c ⟨⟨id, acc, h⟩, hp⟩
    exact hc u c (by rw [h]; rfl) hp
  cases hh : (s.st.pc t).holds with
  | some md => exact holds_returns hr hh (hcr t)
  | none =>
    by_cases hw : ∃ id c, s.st.pc t = .want id c
    · obtain ⟨id, c, ht⟩ := hw
      refine want_returns hr ht (hc t c (by rw [ht]; rfl)) ?_
      rintro (⟨u, c', h, -⟩ | ⟨⟨u, c', h⟩, -⟩ | ⟨w, c', -, -, h1, h2⟩)
      · exact hcr u c' h
      · exact hcr u c' h
      · exact hc w c' h1 h2
    · exact out_returns hh (fun id c h => hw ⟨id, c, h⟩)

/-- Reads go on after a `Get` that panicked, until a writer comes. -/
example : ∃ s : PSt Nat Nat, PReach (· = 0) s ∧ Crashed (· = 0) s 0 (.get 0) ∧ CanReturn (· = 0) s 1 ∧
    callOf (s.st.pc 1) = some .size := by
  have r := PReach.init (bad := (· = 0)) (K := Nat) (V := Nat)
  have r := r.step (.invoke (t := 0) (c := .get 0) rfl)
  have r := r.step (.rlock (t := 0) (id := 0) (c := .get 0) rfl rfl rfl rfl)
  have r := r.step (.invoke (t := 1) (c := .size) rfl)
  have hnp : ¬ Panics (· = 0) (Call.size : Call Nat Nat) := by rintro ⟨k, h, -⟩; cases h
  refine ⟨_, r, ⟨⟨0, [], rfl⟩, ⟨0, rfl, rfl⟩⟩, (C96_exact r (t := 1) (id := 1) (c := .size) rfl hnp).1.2 ?_, rfl⟩
  rintro (⟨u, c', ⟨⟨id, acc, h⟩, -⟩, hw⟩ | ⟨-, hw | hw⟩ | ⟨w, c', -, h, -⟩)
  · simp only [setPc, start, init] at h
    split at h
    · cases h
    · split at h
      · cases h; exact hw
      · cases h
  · exact hw
  · exact hw rfl
  · cases h

end Verif.SyncPanic
