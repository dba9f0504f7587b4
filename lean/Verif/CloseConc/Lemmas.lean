import Verif.CloseConc.Spec
import Mathlib.Logic.Hydra
import Mathlib.Algebra.BigOperators.Group.Finset.Basic
/-!
# Invariants of managers in concurrent use
-/
namespace Verif.CloseConc

/-- The action is inside the lock of `m`. -/
def on (m : Nat) : Act → Bool
  | .call _ => false
  | .add m' _ => m' = m
  | .start m' => m' = m
  | .loop m' _ => m' = m
  | .unlock m' => m' = m

theorem on_calls (m : Nat) (p : List Call) : (p.map Act.call).countP (on m) = 0 := by
  rw [List.countP_eq_zero]
  intro a ha
  simp at ha
  obtain ⟨c, _, rfl⟩ := ha
  simp [on]

/-- The lock of a manager is held by the goroutine that is inside it, once. -/
def Locks (s : St) : Prop := ∀ t m, (s.thr t).countP (on m) = if s.mu m = some t then 1 else 0

theorem locks_start (prog) : Locks (start prog) := by
  intro t m
  simp only [start, on_calls]; rfl

theorem step_other {body : Nat → List Call} {t u : Nat} {s s' : St} (hs : Step body t s s') (hu : u ≠ t) :
    s'.thr u = s.thr u := by
  cases hs <;> simp [St.to, St.lock, hu]

theorem locks_step {body : Nat → List Call} {t : Nat} {s s' : St} (hi : Locks s) (hs : Step body t s s') :
    Locks s' := by
  intro u m'
  have hu' := hi u m'
  by_cases hu : u = t
  · subst hu
    cases hs with
    | lockA m c rest h h2 =>
      rw [h] at hu'
      by_cases hm : m' = m
      · subst hm; simp_all [St.to, St.lock, on]
      · simp_all [St.to, St.lock, on, Ne.symm hm]
    | add m c rest h => rw [h] at hu'; simpa [St.to, on, List.countP_cons] using hu'
    | lockC m rest h h2 =>
      rw [h] at hu'
      by_cases hm : m' = m
      · subst hm; simp_all [St.to, St.lock, on]
      · simp_all [St.to, St.lock, on, Ne.symm hm]
    | start m rest h => rw [h] at hu'; simpa [St.to, on, List.countP_cons] using hu'
    | run m c cs rest h =>
      rw [h] at hu'
      simp only [St.to, if_true, List.countP_append, on_calls, Nat.zero_add]
      simpa [on, List.countP_cons] using hu'
    | done m rest h => rw [h] at hu'; simpa [St.to, on, List.countP_cons] using hu'
    | unlock m rest h =>
      rw [h] at hu'
      by_cases hm : m' = m
      · subst hm
        simp [List.countP_cons, on] at hu'
        simp [St.to, St.lock]
        split at hu' <;> simp_all
      · simp_all [St.to, St.lock, on, Ne.symm hm]
  · rw [step_other hs hu, hu']
    have ht := hi t
    cases hs with
    | lockA m c rest h h2 =>
      by_cases hm : m' = m
      · subst hm; simp [St.to, St.lock, h2, Ne.symm hu]
      · simp [St.to, St.lock, hm]
    | add m c rest h => rfl
    | lockC m rest h h2 =>
      by_cases hm : m' = m
      · subst hm; simp [St.to, St.lock, h2, Ne.symm hu]
      · simp [St.to, St.lock, hm]
    | start m rest h => rfl
    | run m c cs rest h => rfl
    | done m rest h => rfl
    | unlock m rest h =>
      by_cases hm : m' = m
      · subst hm
        have := ht m'
        rw [h] at this
        simp [on, List.countP_cons] at this
        have h3 : s.mu m' = some t := by
          apply Classical.byContradiction
          intro hn
          simp [hn] at this
        simp [St.to, St.lock, h3, Ne.symm hu]
      · simp [St.to, St.lock, hm]

theorem locks_reach {body prog} {s : St} (h : Reach body prog s) : Locks s := by
  induction h with
  | start => exact locks_start prog
  | step _ hs ih => exact locks_step ih hs

theorem locks_steps {body} {s s' : St} (hi : Locks s) (h : Steps body s s') : Locks s' := by
  induction h with
  | refl => exact hi
  | step _ hs ih => exact locks_step ih hs

theorem held_of_mem {s : St} (hi : Locks s) {t m : Nat} {a : Act} (ha : a ∈ s.thr t) (ho : on m a = true) :
    s.mu m = some t := by
  have := hi t m
  have h1 : 0 < (s.thr t).countP (on m) := List.countP_pos_iff.2 ⟨a, ha, ho⟩
  apply Classical.byContradiction
  intro hn
  simp [hn] at this
  have h2 := this a ha
  simp [ho] at h2

/-- The `Close` of `m` a goroutine is in: what it has still to close. -/
def left (m : Nat) : List Act → Option (List Nat)
  | [] => none
  | .loop m' cs :: l => if m' = m then some cs else left m l
  | _ :: l => left m l

theorem left_calls (m : Nat) (p : List Call) (l : List Act) : left m (p.map Act.call ++ l) = left m l := by
  induction p with
  | nil => rfl
  | cons c p ih => simp [left, ih]

theorem left_none {m : Nat} {l : List Act} (h : l.countP (on m) = 0) : left m l = none := by
  induction l with
  | nil => rfl
  | cons a l ih =>
    rw [List.countP_cons] at h
    have h1 := ih (by omega)
    cases a <;> simp_all [left, on]

theorem left_none' {m : Nat} {l : List Act} (h : ∀ a ∈ l, on m a = false) : left m l = none :=
  left_none (List.countP_eq_zero.2 (fun a ha => by rw [h a ha]; simp))

theorem replay_append (m : Nat) (q : Seq) (l : List Ev) (e : Ev) :
    replay m q (l ++ [e]) = (replay m q l).bind (fun q => q.next m e) := by
  induction l generalizing q with
  | nil =>
    simp only [List.nil_append, replay, Option.bind_some]
    cases q.next m e <;> rfl
  | cons x l ih =>
    simp only [List.cons_append, replay]
    cases q.next m x with
    | none => rfl
    | some q' => exact ih q'

/-- The `Close` of `m` that is going on. -/
def goingOn (s : St) (m : Nat) : Option (Nat × List Nat) :=
  (s.mu m).bind (fun t => (left m (s.thr t)).map (fun cs => (t, cs)))

theorem seq_inv {body prog} {s : St} (h : Reach body prog s) (m : Nat) :
    replay m ⟨[], none⟩ s.log = some ⟨s.list m, goingOn s m⟩ := by
  induction h with
  | start => rfl
  | @step s s' t hr hs ih =>
    have hl := locks_reach hr
    have ht := hl t m
    cases hs with
    | lockA m' c rest h h2 =>
      show replay m _ s.log = some ⟨s.list m, _⟩
      rw [ih]
      congr 2
      by_cases hm : m = m'
      · subst hm
        rw [h2, h] at ht
        simp [on] at ht
        have : left m rest = none := left_none' ht
        simp [goingOn, St.to, St.lock, h2, left, this]
      · simp only [goingOn, St.to, St.lock, hm, if_false]
        cases hmu : s.mu m with
        | none => rfl
        | some u =>
          by_cases hu : u = t
          · subst hu; simp [h, left]
          · simp [hu]
    | add m' c rest h =>
      show replay m _ (s.log ++ [_]) = some ⟨if m = m' then _ else _, _⟩
      rw [replay_append, ih]
      by_cases hm : m = m'
      · subst hm
        have hmu := held_of_mem hl (t := t) (m := m) (a := .add m c) (by rw [h]; simp) (by simp [on])
        rw [h, hmu] at ht
        simp [on, List.countP_cons] at ht
        have : left m rest = none := left_none' ht
        simp [Seq.next, goingOn, hmu, h, left, this, St.to]
      · simp [Seq.next, Ne.symm hm, hm]
        simp only [goingOn, St.to]
        cases hmu : s.mu m with
        | none => rfl
        | some u =>
          by_cases hu : u = t
          · subst hu; simp [h, left]
          · simp [hu]
    | lockC m' rest h h2 =>
      show replay m _ s.log = some ⟨s.list m, _⟩
      rw [ih]
      congr 2
      by_cases hm : m = m'
      · subst hm
        rw [h2, h] at ht
        simp [on] at ht
        have : left m rest = none := left_none' ht
        simp [goingOn, St.to, St.lock, h2, left, this]
      · simp only [goingOn, St.to, St.lock, hm, if_false]
        cases hmu : s.mu m with
        | none => rfl
        | some u =>
          by_cases hu : u = t
          · subst hu; simp [h, left]
          · simp [hu]
    | start m' rest h =>
      show replay m _ (s.log ++ [_]) = some ⟨s.list m, _⟩
      rw [replay_append, ih]
      by_cases hm : m = m'
      · subst hm
        have hmu := held_of_mem hl (t := t) (m := m) (a := .start m) (by rw [h]; simp) (by simp [on])
        rw [h, hmu] at ht
        simp [on, List.countP_cons] at ht
        have : left m rest = none := left_none' ht
        simp [Seq.next, goingOn, hmu, h, left, this, St.to]
      · simp [Seq.next, Ne.symm hm]
        simp only [goingOn, St.to]
        cases hmu : s.mu m with
        | none => rfl
        | some u =>
          by_cases hu : u = t
          · subst hu; simp [h, left, Ne.symm hm]
          · simp [hu]
    | run m' c cs rest h =>
      show replay m _ (s.log ++ [_]) = some ⟨s.list m, _⟩
      rw [replay_append, ih]
      by_cases hm : m = m'
      · subst hm
        have hmu := held_of_mem hl (t := t) (m := m) (a := .loop m (c :: cs)) (by rw [h]; simp) (by simp [on])
        simp [Seq.next, goingOn, hmu, h, left, left_calls, St.to]
      · simp [Seq.next, Ne.symm hm]
        simp only [goingOn, St.to]
        cases hmu : s.mu m with
        | none => rfl
        | some u =>
          by_cases hu : u = t
          · subst hu; simp [h, left, left_calls, Ne.symm hm]
          · simp [hu]
    | done m' rest h =>
      show replay m _ (s.log ++ [_]) = some ⟨s.list m, _⟩
      rw [replay_append, ih]
      by_cases hm : m = m'
      · subst hm
        have hmu := held_of_mem hl (t := t) (m := m) (a := .loop m []) (by rw [h]; simp) (by simp [on])
        rw [h, hmu] at ht
        simp [on, List.countP_cons] at ht
        have : left m rest = none := left_none' ht
        simp [Seq.next, goingOn, hmu, h, left, this, St.to]
      · simp [Seq.next, Ne.symm hm]
        simp only [goingOn, St.to]
        cases hmu : s.mu m with
        | none => rfl
        | some u =>
          by_cases hu : u = t
          · subst hu; simp [h, left, Ne.symm hm]
          · simp [hu]
    | unlock m' rest h =>
      show replay m _ s.log = some ⟨s.list m, _⟩
      rw [ih]
      congr 2
      by_cases hm : m = m'
      · subst hm
        have hmu := held_of_mem hl (t := t) (m := m) (a := .unlock m) (by rw [h]; simp) (by simp [on])
        rw [h, hmu] at ht
        simp [on, List.countP_cons] at ht
        have : left m rest = none := left_none' ht
        simp [goingOn, St.to, St.lock, hmu, h, left, this]
      · simp only [goingOn, St.to, St.lock, hm, if_false]
        cases hmu : s.mu m with
        | none => rfl
        | some u =>
          by_cases hu : u = t
          · subst hu; simp [h, left]
          · simp [hu]

/-- What is left of a goroutine, seen from outside. -/
def items : List Act → List Item
  | [] => []
  | .call c :: l => .call c :: items l
  | .add m c :: l => .call (.append m c) :: items l
  | .start m :: l => .call (.close m) :: items l
  | .loop m _ :: l => .closing m :: items l
  | .unlock _ :: l => items l

theorem items_calls (p : List Call) (l : List Act) :
    items (p.map Act.call ++ l) = p.map Item.call ++ items l := by
  induction p with
  | nil => rfl
  | cons c p ih => simp [items, ih]

theorem follow_append (body : Nat → List Call) (t : Nat) (l : List Ev) (e : Ev) (p : List Item) :
    follow body t p (l ++ [e]) = (follow body t p l).bind (fun p => follow body t p [e]) := by
  induction l generalizing p with
  | nil => simp [follow]
  | cons x l ih =>
    cases x <;> simp only [List.cons_append, follow] <;> split
    all_goals first
      | exact ih _
      | (split
         · split
           · exact ih _
           · rfl
         · rfl)

theorem follow_other (body : Nat → List Call) (t : Nat) (p : List Item) (u m c : Nat) (h : u ≠ t) :
    follow body t p [.added u m c] = some p ∧ follow body t p [.began u m] = some p ∧
    follow body t p [.closed u m c] = some p ∧ follow body t p [.ended u m] = some p := by
  simp [follow, h]

theorem follow_inv {body prog} {s : St} (h : Reach body prog s) (t : Nat) :
    follow body t ((prog t).map .call) s.log = some (items (s.thr t)) := by
  induction h with
  | start => have := items_calls (prog t) []; simp [items] at this; simp [start, follow, this]
  | @step s s' u _ hs ih =>
    by_cases hu : t = u
    · subst hu
      cases hs with
      | lockA m c rest h h2 => rw [h] at ih; simpa [St.to, St.lock, items] using ih
      | add m c rest h => rw [h] at ih; simp [St.to, items, follow_append, ih, follow]
      | lockC m rest h h2 => rw [h] at ih; simpa [St.to, St.lock, items] using ih
      | start m rest h => rw [h] at ih; simp [St.to, items, follow_append, ih, follow]
      | run m c cs rest h => rw [h] at ih; simp [St.to, items, items_calls, follow_append, ih, follow]
      | done m rest h => rw [h] at ih; simp [St.to, items, follow_append, ih, follow]
      | unlock m rest h => rw [h] at ih; simpa [St.to, St.lock, items] using ih
    · rw [step_other hs hu]
      have hu' := Ne.symm hu
      cases hs with
      | lockA m c rest h h2 => exact ih
      | add m c rest h => simp only [St.to, follow_append, ih, Option.bind_some, (follow_other body t _ u m c hu').1]
      | lockC m rest h h2 => exact ih
      | start m rest h => simp only [St.to, follow_append, ih, Option.bind_some, (follow_other body t _ u m 0 hu').2.1]
      | run m c cs rest h =>
        simp only [St.to, follow_append, ih, Option.bind_some, (follow_other body t _ u m c hu').2.2.1]
      | done m rest h => simp only [St.to, follow_append, ih, Option.bind_some, (follow_other body t _ u m 0 hu').2.2.2]
      | unlock m rest h => exact ih

end Verif.CloseConc
