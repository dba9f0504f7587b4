import Verif.Lazy.Model
/-!
# Property C35: lazy construction
-/
namespace Verif.Lazy

variable {T : Type} [Inhabited T]

/-- The steps between locking and unlocking. -/
def Pc.holds : Pc T → Bool
  | .check | .run | .write _ | .done _ | .unlock _ => true
  | _ => false

/-- What every reachable state satisfies. -/
structure Inv (s : St T) : Prop where
  mu : ∀ g, (s.pc g).holds = true ↔ s.mu = some g
  fresh : s.starts = 0 → s.done = false ∧ s.ended = false ∧ s.result = none ∧ s.value = default ∧
    ∀ g, s.pc g = .idle ∨ s.pc g = .load ∨ s.pc g = .lock ∨ s.pc g = .check
  once : s.starts ≤ 1
  active : s.starts = 1 → s.done = false → ∃ g, s.pc g = .run ∨ (∃ v, s.pc g = .write v) ∨ ∃ p, s.pc g = .done p
  run : ∀ g, s.pc g = .run → s.done = false ∧ s.ended = false ∧ s.result = none ∧ s.value = default
  write : ∀ g v, s.pc g = .write v → s.done = false ∧ s.ended = true ∧ s.result = some v ∧ s.value = default
  setting : ∀ g p, s.pc g = .done p → s.done = false ∧ s.ended = true ∧ s.value = s.result.getD default
  finished : s.done = true → s.ended = true ∧ s.value = s.result.getD default
  unlock : ∀ g p, s.pc g = .unlock p → s.done = true
  read : ∀ g, s.pc g = .read → s.done = true
  ret : ∀ g v, s.pc g = .ret v → s.done = true ∧ v = s.value
  pan : ∀ g, s.pc g = .panicked → s.done = true

theorem init_inv : Inv (init : St T) := by
  constructor <;> simp [init, Pc.holds]

theorem at_pc (s : St T) (g h : Nat) (p : Pc T) : (s.at g p).pc h = if h = g then p else s.pc h := rfl

theorem step_inv {s s' : St T} {g : Nat} (i : Inv s) (st : Step g s s') : Inv s' := by
  obtain ⟨i1, i2, i3, i4, i5, i6, i7, i8, i9, i10, i11, i12⟩ := i
  cases st <;> constructor <;> simp only [at_pc, St.at] <;> grind [Pc.holds]

theorem reach_inv {s : St T} (r : Reach s) : Inv s := by
  induction r with
  | init => exact init_inv
  | step _ st ih => exact step_inv ih st

/-- **C35.** In every reachable state: the constructor was started at most once; if some `Get` has
returned, the constructor's run is over; and what that `Get` returned is what the constructor
returned, or the zero value if the constructor panicked. -/
theorem C35_lazy {s : St T} (r : Reach s) :
    s.starts ≤ 1 ∧ ∀ g v, s.pc g = .ret v → s.starts = 1 ∧ s.ended = true ∧
      (s.result = some v ∨ (s.result = none ∧ v = default)) := by
  have i := reach_inv r
  refine ⟨i.once, fun g v hv => ?_⟩
  obtain ⟨h1, h2⟩ := i.ret g v hv
  obtain ⟨h3, h4⟩ := i.finished h1
  have h5 : s.starts ≠ 0 := fun h0 => by
    have := (i.fresh h0).1
    rw [h1] at this; cases this
  refine ⟨by have := i.once; omega, h3, ?_⟩
  cases hr : s.result with
  | none => exact Or.inr ⟨rfl, by rw [h2, h4, hr]; rfl⟩
  | some x => exact Or.inl (by rw [h2, h4, hr]; rfl)

/-- **C35.** All `Get`s that return after the constructor returned `x` give `x`: from then on, in every
continuation. -/
theorem C35_same_value {s : St T} (r : Reach s) (x : T) (hx : s.result = some x) (g h : Nat) (v w : T)
    (hv : s.pc g = .ret v) (hw : s.pc h = .ret w) : v = x ∧ w = x := by
  have h1 := ((C35_lazy r).2 g v hv).2.2
  have h2 := ((C35_lazy r).2 h w hw).2.2
  rw [hx] at h1 h2
  simp at h1 h2
  exact ⟨h1.symm, h2.symm⟩

/-- The constructor's result, once there, never changes. -/
theorem C35_result_stable {s s' : St T} {g : Nat} (r : Reach s) (st : Step g s s') (x : T) (hx : s.result = some x) :
    s'.result = some x := by
  have i := reach_inv r
  cases st <;> simp only [St.at] <;> first | exact hx | skip
  rename_i hp
  have := (i.run g hp).2.2.1
  rw [hx] at this; cases this

/-- The write to the value never races with a read of it: no goroutine is about to read while one is
about to write, nor are two about to write. -/
theorem C35_no_race {s : St T} (r : Reach s) (g : Nat) (v : T) (hw : s.pc g = .write v) :
    (∀ h, s.pc h ≠ .read) ∧ ∀ h w, s.pc h = .write w → h = g := by
  have i := reach_inv r
  refine ⟨fun h hr => ?_, fun h w hh => ?_⟩
  · have h1 := i.read h hr
    have h2 := (i.write g v hw).1
    rw [h1] at h2; cases h2
  · have h1 := (i.mu g).1 (by rw [hw]; rfl)
    have h2 := (i.mu h).1 (by rw [hh]; rfl)
    rw [h1] at h2; injection h2 with e; exact e.symm

/-- No `Get` is stuck: a goroutine inside a call can make a step itself, or is waiting for the mutex
while its holder can make a step. -/
theorem C35_no_deadlock {s : St T} (r : Reach s) (g : Nat) :
    (∃ s', Step g s s') ∨ (s.pc g = .lock ∧ ∃ h, s.mu = some h ∧ ∃ s', Step h s s') := by
  have i := reach_inv r
  have key : ∀ h, s.pc h ≠ .lock → ∃ s', Step h s s' := by
    intro h hl
    cases hp : s.pc h with
    | idle => exact ⟨_, .call s (Or.inl hp)⟩
    | load =>
      cases hd : s.done with
      | true => exact ⟨_, .loadSet s hp hd⟩
      | false => exact ⟨_, .loadUnset s hp hd⟩
    | lock => exact absurd hp hl
    | check =>
      cases hd : s.done with
      | true => exact ⟨_, .checkSet s hp hd⟩
      | false => exact ⟨_, .checkUnset s hp hd⟩
    | run => exact ⟨_, .ctorPanic s hp⟩
    | write v => exact ⟨_, .write s v hp⟩
    | done p => exact ⟨_, .setDone s p hp⟩
    | unlock p =>
      cases p with
      | true => exact ⟨_, .unlockPanic s hp⟩
      | false => exact ⟨_, .unlock s hp⟩
    | read => exact ⟨_, .read s hp⟩
    | ret v => exact ⟨_, .call s (Or.inr (Or.inl ⟨v, hp⟩))⟩
    | panicked => exact ⟨_, .call s (Or.inr (Or.inr hp))⟩
  by_cases hl : s.pc g = .lock
  · cases hm : s.mu with
    | none => exact Or.inl ⟨_, .lock s hl hm⟩
    | some h =>
      refine Or.inr ⟨hl, h, rfl, key h (fun hx => ?_)⟩
      have := (i.mu h).2 hm
      rw [hx] at this; cases this
  · exact Or.inl (key g hl)

/-- Two goroutines race for the construction; both get the value of the one that won. -/
example : ∃ s : St Nat, Reach s ∧ s.pc 0 = .ret 7 ∧ s.pc 1 = .ret 7 ∧ s.starts = 1 := by
  have r := Reach.init (T := Nat)
  have r := r.step (.call (g := 0) _ (Or.inl rfl))
  have r := r.step (.call (g := 1) _ (Or.inl rfl))
  have r := r.step (.loadUnset (g := 0) _ rfl rfl)
  have r := r.step (.loadUnset (g := 1) _ rfl rfl)
  have r := r.step (.lock (g := 1) _ rfl rfl)
  have r := r.step (.checkUnset (g := 1) _ rfl rfl)
  have r := r.step (.ctorRet (g := 1) _ 7 rfl)
  have r := r.step (.write (g := 1) _ 7 rfl)
  have r := r.step (.setDone (g := 1) _ false rfl)
  have r := r.step (.unlock (g := 1) _ rfl)
  have r := r.step (.lock (g := 0) _ rfl rfl)
  have r := r.step (.checkSet (g := 0) _ rfl rfl)
  have r := r.step (.read (g := 1) _ rfl)
  have r := r.step (.unlock (g := 0) _ rfl)
  have r := r.step (.read (g := 0) _ rfl)
  exact ⟨_, r, rfl, rfl, rfl⟩

end Verif.Lazy
