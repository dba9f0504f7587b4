import Verif.SklAny.Lemmas
import Verif.Ord.Props
import Verif.OrdAny.Spec
/-!
# The two halves of the ordered map under any comparison
-/
set_option linter.unusedSectionVars false
namespace Verif.OrdAny
open Verif.Go Verif.Skl Verif.MapSpec Verif.Ord Verif.SklAny

section
variable {K V : Type} [GoOrdered K]

theorem lookupEq_set (h : List (Op K V)) (k k' : K) (v : V) :
    lookupEq (h ++ [.set k v]) k' = if GoOrdered.eq k' k then some v else lookupEq h k' := by
  simp [lookupEq, List.foldl_append]

theorem lookupEq_del (h : List (Op K V)) (k k' : K) :
    lookupEq (h ++ [.del k]) k' = if GoOrdered.eq k' k then none else lookupEq h k' := by
  simp [lookupEq, List.foldl_append]

theorem lookupEq_clear (h : List (Op K V)) (s : BitVec 64) (k' : K) : lookupEq (h ++ [.clear s]) k' = none := by
  simp [lookupEq, List.foldl_append]

/-- Equal keys have the same value. -/
theorem lookupEq_congr (pe : PartialEq K) (hist : List (Op K V)) {k k' : K} (h : GoOrdered.eq k k' = true) :
    lookupEq hist k = lookupEq hist k' := by
  have key : ∀ c, GoOrdered.eq k c = GoOrdered.eq k' c := by
    intro c
    rw [Bool.eq_iff_iff]
    exact ⟨fun h1 => pe.trans (pe.symm h) h1, fun h1 => pe.trans h h1⟩
  induction hist using List.reverseRecOn with
  | nil => rfl
  | append_singleton hist op ih =>
    cases op with
    | set c v => rw [lookupEq_set, lookupEq_set, key, ih]
    | del c => rw [lookupEq_del, lookupEq_del, key, ih]
    | clear s => rw [lookupEq_clear, lookupEq_clear]

/-- A present key is equal to itself. -/
theorem lookupEq_self (pe : PartialEq K) (hist : List (Op K V)) {k : K} (h : (lookupEq hist k).isSome) :
    GoOrdered.eq k k = true := by
  induction hist using List.reverseRecOn with
  | nil => cases h
  | append_singleton hist op ih =>
    cases op with
    | set c v =>
      rw [lookupEq_set] at h
      split at h
      · rename_i he; exact pe.trans he (pe.symm he)
      · exact ih h
    | del c =>
      rw [lookupEq_del] at h
      split at h
      · cases h
      · exact ih h
    | clear s => rw [lookupEq_clear] at h; cases h

variable [Inhabited K] [Inhabited V]

/-- The Go map holds what the history says, and the index has every key the Go map has. -/
structure InvE (hist : List (Op K V)) (o : OrdMap K V) (nodes : List Nat) : Prop where
  rep : Rep0 o.skl nodes
  m : ∀ k, o.m k = lookupEq hist k
  sub : ∀ k, (lookupEq hist k).isSome → ∃ e ∈ kvs o.skl nodes, GoOrdered.eq e.1 k = true

theorem step_inv (pe : PartialEq K) {hist : List (Op K V)} {o : OrdMap K V} {nodes : List Nat} (i : InvE hist o nodes)
    (op : Op K V) : ∃ o' nodes', Ord.step o op = .ret o' ∧ InvE (hist ++ [op]) o' nodes' := by
  cases op with
  | set k v =>
    simp only [Ord.step, Ord.set]
    split
    · obtain ⟨w', n', e, r', c⟩ := i.rep.set k ()
      refine ⟨_, n', by rw [e]; rfl, r', fun k' => ?_, fun k' hk' => ?_⟩
      · simp only [assign]; rw [lookupEq_set, i.m]
      · simp only
        rw [lookupEq_set] at hk'
        by_cases hq : GoOrdered.eq k' k = true
        · generalize kvs o.skl nodes = l at c
          generalize kvs w' n' = l' at c
          cases c with
          | add _ _ => exact ⟨(k, ()), by simp, pe.symm hq⟩
          | @replace A B _ k0 u _ _ he => exact ⟨(k0, ()), by simp, pe.trans he (pe.symm hq)⟩
        · rw [if_neg hq] at hk'
          obtain ⟨x, hx, hxe⟩ := i.sub k' hk'
          generalize kvs o.skl nodes = l at c hx
          generalize kvs w' n' = l' at c
          cases c with
          | add _ _ =>
            refine ⟨x, ?_, hxe⟩
            simp only [List.mem_append, List.mem_cons] at hx ⊢
            tauto
          | @replace A B _ k0 u _ _ he => exact ⟨x, hx, hxe⟩
    · rename_i hn
      refine ⟨_, nodes, rfl, i.rep, fun k' => ?_, fun k' hk' => ?_⟩
      · simp only [assign]; rw [lookupEq_set, i.m]
      · simp only
        rw [lookupEq_set] at hk'
        by_cases hq : GoOrdered.eq k' k = true
        · rw [i.m] at hn
          obtain ⟨x, hx, hxe⟩ := i.sub k (by cases h : lookupEq hist k <;> simp_all)
          exact ⟨x, hx, pe.trans hxe (pe.symm hq)⟩
        · rw [if_neg hq] at hk'
          exact i.sub k' hk'
  | del k =>
    simp only [Ord.step, Ord.del]
    split
    · obtain ⟨w', n', b, e, r', c, -⟩ := i.rep.del k
      refine ⟨_, n', by rw [e]; rfl, r', fun k' => ?_, fun k' hk' => ?_⟩
      · simp only [erase]; rw [lookupEq_del, i.m]
      · simp only
        rw [lookupEq_del] at hk'
        by_cases hq : GoOrdered.eq k' k = true
        · rw [if_pos hq] at hk'; cases hk'
        · rw [if_neg hq] at hk'
          obtain ⟨x, hx, hxe⟩ := i.sub k' hk'
          generalize kvs o.skl nodes = l at c hx
          generalize kvs w' n' = l' at c
          cases c with
          | @remove A B _ k0 u _ he =>
            refine ⟨x, ?_, hxe⟩
            simp only [List.mem_append, List.mem_cons] at hx ⊢
            rcases hx with h | rfl | h
            · exact .inl h
            · exact absurd (pe.trans (pe.symm hxe) he) hq
            · exact .inr h
          | miss _ _ => exact ⟨x, hx, hxe⟩
    · rename_i hn
      rw [i.m] at hn
      have hl : ∀ k', lookupEq (hist ++ [.del k]) k' = lookupEq hist k' := by
        intro k'
        rw [lookupEq_del]
        split
        · rename_i he
          rw [lookupEq_congr pe hist he]
          cases h : lookupEq hist k <;> simp_all
        · rfl
      exact ⟨_, nodes, rfl, i.rep, fun k' => by rw [hl, i.m], fun k' hk' => i.sub k' (by rwa [hl] at hk')⟩
  | clear s =>
    refine ⟨_, [], rfl, Rep0.newIn _ _, fun k' => ?_, fun k' hk' => ?_⟩
    · rw [lookupEq_clear]; rfl
    · rw [lookupEq_clear] at hk'; cases hk'

theorem run_inv (pe : PartialEq K) (seed : BitVec 64) (hist : List (Op K V)) :
    ∃ o nodes, Ord.run (Ord.new seed) hist = .ret o ∧ InvE hist o nodes := by
  have app : ∀ (xs ys : List (Op K V)) (o : OrdMap K V),
      Ord.run o (xs ++ ys) = (Ord.run o xs).bind fun o' => Ord.run o' ys := by
    intro xs
    induction xs with
    | nil => intros; rfl
    | cons x xs ih =>
      intro ys o
      simp only [List.cons_append, Ord.run]
      cases h : Ord.step o x <;> simp [ih]
  induction hist using List.reverseRecOn with
  | nil => exact ⟨_, [], rfl, Rep0.newIn _ _, fun _ => rfl, fun _ h => by cases h⟩
  | append_singleton hist op ih =>
    obtain ⟨o, nodes, e, i⟩ := ih
    obtain ⟨o', n', e', i'⟩ := step_inv pe i op
    exact ⟨o', n', by rw [app, e]; simp [Ord.run, e'], i'⟩

end
end Verif.OrdAny
