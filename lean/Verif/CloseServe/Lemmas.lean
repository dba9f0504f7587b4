import Verif.CloseServe.Spec
import Verif.Conc.Later
/-!
# Lemmas for C178
-/
namespace Verif.CloseServe
open Verif.Conc Verif.CloseMgr

variable {W : Type} {w : W}

theorem readsOnly : RW.ReadsOnly (manager w) := by
  intro s c i r s' hw hf
  cases hw

theorem live : RW.Live (manager w) := by
  intro m c acc h
  cases c with
  | append c =>
    have : acc = .start := by
      induction h with
      | refl => rfl
      | tail _ h _ => cases h
    subst this
    exact .inr ⟨_, _, .append⟩
  | close =>
    cases acc with
    | start => exact .inl ⟨_, .enter⟩
    | loop left errs w' =>
      cases left with
      | nil => exact .inr ⟨_, _, .close⟩
      | cons c cs =>
        rcases hc : c w' with ⟨e, w2⟩
        cases e with
        | none => exact .inl ⟨_, .fine hc⟩
        | some e => exact .inl ⟨_, .failed hc⟩

/-- What is left to do. -/
def left (m : Mgr W × W) : Acc W → Nat
  | .start => m.1.list.length + 1
  | .loop cs _ _ => cs.length

theorem shrinks : RW.ShrinksFrom (manager w) fun m _ acc => left m acc := by
  rintro m c acc acc' - st
  cases st <;> simp [left]

theorem Closes.total (cs : List (Closer W)) : ∀ w, ∃ es w', Closes cs w es w' := by
  induction cs with
  | nil => exact fun w => ⟨_, _, .nil⟩
  | cons c cs ih =>
    intro w
    rcases hc : c w with ⟨e, w1⟩
    obtain ⟨es, w2, h⟩ := ih w1
    cases e with
    | none => exact ⟨_, _, .fine hc h⟩
    | some e => exact ⟨_, _, .failed hc h⟩

/-- A `Close` in the loop: what is left will complete what has been done. -/
theorem loops {m : Mgr W × W} {acc : Acc W} (h : Relation.ReflTransGen (Iter m .close) .start acc) :
    acc = .start ∨ ∃ cs errs w', acc = .loop cs errs w' ∧ ∀ es w2, Closes cs w' es w2 → Closes m.1.list m.2 (errs ++ es) w2 := by
  induction h with
  | refl => exact .inl rfl
  | tail _ st ih =>
    right
    cases st with
    | enter => exact ⟨_, _, _, rfl, fun es w2 h => h⟩
    | fine hc =>
      rcases ih with ih | ⟨cs, errs, w', h1, h2⟩
      · cases ih
      · cases h1
        exact ⟨_, _, _, rfl, fun es w2 h => h2 _ _ (.fine hc h)⟩
    | failed hc =>
      rcases ih with ih | ⟨cs, errs, w', h1, h2⟩
      · cases ih
      · cases h1
        exact ⟨_, _, _, rfl, fun es w2 h => by simpa using h2 _ _ (.failed hc h)⟩

/-- The manager and the list. -/
def Agree (m : Mgr W × W) (s : List (Closer W) × W) : Prop := m.1.list = s.1 ∧ m.2 = s.2

theorem sim_step (m m' : Mgr W × W) (c : Call W) (r : Res) (s : List (Closer W) × W) (ag : Agree m s) (st : (RW.seqObj (manager w)).step m c r m') :
    ∃ s', (listObj w).step s c r s' ∧ Agree m' s' := by
  obtain ⟨acc, run, st⟩ := st
  obtain ⟨h1, h2⟩ := ag
  cases st with
  | append => exact ⟨_, ⟨rfl, rfl⟩, by simp [Mgr.append, h1], h2⟩
  | close =>
    rcases loops run with h | ⟨cs, errs, w', h, h3⟩
    · cases h
    · cases h
      have := h3 _ _ .nil
      rw [List.append_nil, h1, h2] at this
      exact ⟨_, ⟨_, _, this, rfl, rfl⟩, h1, rfl⟩

/-- The list holds what was appended, nothing else. -/
theorem holds {S : List (Nat × Call W × Res)} {s : List (Closer W) × W} (h : Legal (listObj w) S s) :
    s.1 = S.filterMap fun y => match y.2.1 with
      | .append c => some c
      | .close => none := by
  induction h with
  | nil => rfl
  | @snoc S s s' id c r hl st ih =>
    cases c with
    | append c => obtain ⟨-, rfl⟩ := st; simp [ih]
    | close => obtain ⟨es, w', -, -, rfl⟩ := st; simp [ih]

theorem Closes.reports {cs : List (Closer W)} {w w' : W} {es : List Err} (h : Closes cs w es w') {c : Closer W} {e : Err} (hc : c ∈ cs) (hf : ∀ w, (c w).1 = some e) :
    e ∈ es := by
  induction h with
  | nil => cases hc
  | fine h1 _ ih =>
    rcases List.mem_cons.1 hc with rfl | hc
    · rename_i w _ _ _ _
      have := hf w
      rw [h1] at this
      cases this
    · exact ih hc
  | failed h1 _ ih =>
    rcases List.mem_cons.1 hc with rfl | hc
    · rename_i w _ _ _ _ _
      have := hf w
      rw [h1] at this
      cases this
      simp
    · exact List.mem_cons_of_mem _ (ih hc)

theorem closeLoop_eq {cs : List (Closer W)} {w w' : W} {es : List Err} (h : Closes cs w es w') : ∀ errs, closeLoop cs errs w = (errs ++ es, w') := by
  induction h with
  | nil => intro errs; simp [closeLoop]
  | fine h1 _ ih => intro errs; simp [closeLoop, h1, ih]
  | failed h1 _ ih => intro errs; simp [closeLoop, h1, ih]

end Verif.CloseServe
