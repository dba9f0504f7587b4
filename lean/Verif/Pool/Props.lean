import Verif.Pool.Model
/-!
# Property C36: the typed pool
-/
namespace Verif.Pool

/-- Every object is in one place only, and known. -/
structure Inv (s : St) : Prop where
  nodup : (s.stored ++ s.held.map (·.2)).Nodup
  known : ∀ x ∈ s.stored ++ s.held.map (·.2), x ∈ s.known
  puts : ∀ x ∈ s.stored, x ∈ s.puts

theorem perm_erase_pair {l : List (Nat × Nat)} {g x : Nat} (h : (g, x) ∈ l) :
    (x :: (l.erase (g, x)).map (·.2)).Perm (l.map (·.2)) := by
  have := (List.perm_cons_erase h).map (·.2)
  exact this.symm

theorem inv_new {s : St} {x : Nat} (g : Nat) (i : Inv s) (hx : x ∉ s.known) :
    Inv { s with known := x :: s.known, held := (g, x) :: s.held } := by
  refine ⟨?_, ?_, i.puts⟩
  · have hp : (s.stored ++ ((g, x) :: s.held).map (·.2)).Perm (x :: (s.stored ++ s.held.map (·.2))) := by
      simpa using List.perm_middle
    rw [hp.nodup_iff]
    exact List.nodup_cons.2 ⟨fun hm => hx (i.known x hm), i.nodup⟩
  · intro y hy
    simp only [List.map_cons, List.mem_append, List.mem_cons] at hy ⊢
    rcases hy with h | h | h
    · exact Or.inr (i.known y (List.mem_append_left _ h))
    · exact Or.inl h
    · exact Or.inr (i.known y (List.mem_append_right _ h))

theorem step_inv {s s' : St} (i : Inv s) (st : Step s s') : Inv s' := by
  cases st with
  | init => exact ⟨i.nodup, i.known, i.puts⟩
  | get hg =>
    cases hg with
    | stored x hx =>
      have hp : (s.stored.erase x ++ ((0, x) :: s.held).map (·.2)).Perm (s.stored ++ s.held.map (·.2)) := by
        simp only [List.map_cons]
        refine List.perm_middle.trans ?_
        rw [← List.cons_append]
        exact (List.perm_cons_erase hx).symm.append_right _
      exact ⟨hp.nodup_iff.2 i.nodup, fun y hy => i.known y (hp.mem_iff.1 hy),
        fun y hy => i.puts y (List.mem_of_mem_erase hy)⟩
    | new x _ hx => exact inv_new _ i hx
    | nil => exact i
  | put _ g x hx =>
    have hp : ((x :: s.stored) ++ (s.held.erase (g, x)).map (·.2)).Perm (s.stored ++ s.held.map (·.2)) := by
      rw [List.cons_append]
      exact List.perm_middle.symm.trans ((perm_erase_pair hx).append_left _)
    refine ⟨hp.nodup_iff.2 i.nodup, fun y hy => i.known y (hp.mem_iff.1 hy), fun y hy => ?_⟩
    rcases List.mem_cons.1 hy with e | hy
    · exact List.mem_cons.2 (Or.inl e)
    · exact List.mem_cons_of_mem _ (i.puts y hy)
  | own _ g x hx => exact inv_new _ i hx
  | drop _ x =>
    refine ⟨i.nodup.sublist ((List.erase_sublist).append_right _), fun y hy => ?_,
      fun y hy => i.puts y (List.mem_of_mem_erase hy)⟩
    refine i.known y ?_
    rcases List.mem_append.1 hy with h | h
    · exact List.mem_append_left _ (List.mem_of_mem_erase h)
    · exact List.mem_append_right _ h

theorem reach_inv {s : St} (r : Reach s) : Inv s := by
  induction r with
  | init => exact ⟨by simp [init], by simp [init], by simp [init]⟩
  | step _ st ih => exact step_inv ih st

/-- **C36.** In every reachable state, whatever the runtime pool chooses: an object `Get` returns is
held by nobody at that moment, nobody else holds it afterwards, and it came from the `New` function
called in this very `Get` or was put earlier. -/
theorem C36_exclusive {s s' : St} (r : Reach s) {g x : Nat} {fresh : Bool} (hg : Get g s s' (.obj x) fresh) :
    (∀ h, (h, x) ∉ s.held) ∧ (∀ h, (h, x) ∈ s'.held → h = g) ∧
    (fresh = true ∧ s.hasNew = true ∧ x ∉ s.known ∨ fresh = false ∧ x ∈ s.puts) := by
  have i := reach_inv r
  have key : (∀ h, (h, x) ∉ s.held) → ∀ h, (h, x) ∈ (g, x) :: s.held → h = g := by
    intro hn h hm
    rcases List.mem_cons.1 hm with e | hm
    · exact congrArg Prod.fst e
    · exact absurd hm (hn h)
  cases hg with
  | stored x hx =>
    have hn : ∀ h, (h, x) ∉ s.held := fun h hm =>
      (List.disjoint_of_nodup_append i.nodup) hx (List.mem_map.2 ⟨_, hm, rfl⟩)
    exact ⟨hn, key hn, Or.inr ⟨rfl, i.puts x hx⟩⟩
  | new x hnew hx =>
    have hn : ∀ h, (h, x) ∉ s.held := fun h hm =>
      hx (i.known x (List.mem_append_right _ (List.mem_map.2 ⟨_, hm, rfl⟩)))
    exact ⟨hn, key hn, Or.inl ⟨rfl, hnew, hx⟩⟩

/-- **C36.** No object ever has two holders. -/
theorem C36_one_holder {s : St} (r : Reach s) {g h x : Nat} (hg : (g, x) ∈ s.held) (hh : (h, x) ∈ s.held) : g = h := by
  have i := reach_inv r
  have nd : (s.held.map (·.2)).Nodup := (List.nodup_append.1 i.nodup).2.1
  have := List.inj_on_of_nodup_map nd hg hh rfl
  exact congrArg Prod.fst this

/-- **C36.** `Get` on a pool without `Init` and with nothing stored panics, and on a pool with `Init`
it never does. -/
theorem C36_panic (s : St) (g : Nat) :
    (s.hasNew = false → s.stored = [] → (∃ s', Get g s s' .panic false) ∧ ∀ s' r b, Get g s s' r b → r = .panic) ∧
    (s.hasNew = true → ∀ s' b, ¬ Get g s s' .panic b) := by
  refine ⟨fun h1 h2 => ⟨⟨s, .nil s h1⟩, fun s' r b hg => ?_⟩, fun h1 s' b hg => ?_⟩
  · cases hg with
    | stored x hx => rw [h2] at hx; cases hx
    | new x hn _ => rw [h1] at hn; cases hn
    | nil => rfl
  · cases hg with
    | nil h => rw [h1] at h; cases h

/-- **C36.** In particular `Get` on the zero pool panics. -/
theorem C36_zero_pool {s' : St} {g : Nat} {r : Res} {b : Bool} (hg : Get g init s' r b) : r = .panic :=
  ((C36_panic init g).1 rfl rfl).2 s' r b hg

/-- Caller 1 gets object 5 from `New`, puts it, caller 2 gets the same object. -/
example : ∃ s, Reach s ∧ (2, 5) ∈ s.held := by
  have r := Reach.init
  have r := r.step (.init _)
  have r := r.step (.get (Get.new (g := 1) _ 5 rfl (by simp [init])))
  have r := r.step (.put _ 1 5 (by simp [init]))
  have r := r.step (.get (Get.stored (g := 2) _ 5 (by simp)))
  exact ⟨_, r, by simp⟩

example : Get 1 init init .panic false := .nil init rfl

end Verif.Pool
