import Verif.SyncAny.Spec
import Mathlib.Data.List.Induction
/-!
# Lemmas: the entries after a history
-/
namespace Verif.SyncAny
variable {K V : Type} {eq : K → K → Bool}

theorem lookup_set (h : List (Op K V)) (k k' : K) (v : V) :
    lookup eq (h ++ [.set k v]) k' = if eq k' k then some v else lookup eq h k' := by
  simp [lookup, List.foldl_append]

theorem lookup_delete (h : List (Op K V)) (k k' : K) :
    lookup eq (h ++ [.delete k]) k' = if eq k' k then none else lookup eq h k' := by
  simp [lookup, List.foldl_append]

theorem lookup_clear (h : List (Op K V)) (k' : K) : lookup eq (h ++ [.clear]) k' = none := by
  simp [lookup, List.foldl_append]

theorem unreachable_set (h : List (Op K V)) (k : K) (v : V) :
    unreachable eq (h ++ [.set k v]) = if eq k k then unreachable eq h else unreachable eq h ++ [(k, v)] := by
  simp [unreachable, List.foldl_append]

theorem unreachable_delete (h : List (Op K V)) (k : K) : unreachable eq (h ++ [.delete k]) = unreachable eq h := by
  simp [unreachable, List.foldl_append]

theorem run_append (h : List (Op K V)) (op : Op K V) : run eq (h ++ [op]) = step eq (run eq h) op := by
  simp [run, List.foldl_append]

theorem PartialEq.left (pe : PartialEq eq) {a b : K} (h : eq a b = true) : eq a a = true := pe.trans h (pe.symm h)

/-- Equal keys compare alike. -/
theorem PartialEq.congr (pe : PartialEq eq) {a b : K} (h : eq a b = true) (c : K) : eq c a = eq c b := by
  rw [Bool.eq_iff_iff]
  exact ⟨fun h1 => pe.trans h1 h, fun h1 => pe.trans h1 (pe.symm h)⟩

theorem filter_erase (m : List (K × V)) (k k' : K) (pe : PartialEq eq) :
    (erase eq m k).filter (fun e => eq e.1 k') = if eq k' k then [] else m.filter (fun e => eq e.1 k') := by
  unfold erase
  rw [List.filter_filter]
  split
  · rename_i h
    rw [List.filter_eq_nil_iff]
    intro e _
    rw [pe.congr h e.1]
    cases eq e.1 k <;> simp
  · rename_i h
    refine List.filter_congr (fun e _ => ?_)
    cases he : eq e.1 k' with
    | false => simp
    | true =>
      cases hk : eq e.1 k with
      | false => rfl
      | true => exact absurd (pe.trans (pe.symm he) hk) h

/-- What the entries are after a history. -/
theorem entries_spec (pe : PartialEq eq) (hist : List (Op K V)) :
    (∀ k, ((run eq hist).filter (fun e => eq e.1 k)).map Prod.snd = (lookup eq hist k).toList) ∧
    ((run eq hist).filter (fun e => !eq e.1 e.1)).Perm (unreachable eq hist) := by
  induction hist using List.reverseRecOn with
  | nil => exact ⟨fun k => rfl, .nil⟩
  | append_singleton hist op ih =>
    obtain ⟨ih1, ih2⟩ := ih
    have nan : ∀ k : K, (erase eq (run eq hist) k).filter (fun e => !eq e.1 e.1) =
        (run eq hist).filter (fun e => !eq e.1 e.1) := by
      intro k
      unfold erase
      rw [List.filter_filter]
      refine List.filter_congr (fun e _ => ?_)
      cases hs : eq e.1 e.1 with
      | true => rfl
      | false =>
        cases hk : eq e.1 k with
        | false => rfl
        | true => rw [pe.left hk] at hs; cases hs
    rw [run_append]
    cases op with
    | set k v =>
      refine ⟨fun k' => ?_, ?_⟩
      · rw [lookup_set]
        show (((k, v) :: erase eq (run eq hist) k).filter _).map _ = _
        rw [List.filter_cons, filter_erase _ _ _ pe]
        cases h : eq k' k with
        | true => simp [pe.symm h]
        | false =>
          have : eq k k' = false := by
            cases h' : eq k k' with
            | false => rfl
            | true => rw [pe.symm h'] at h; cases h
          simpa [this] using ih1 k'
      · rw [unreachable_set]
        show (((k, v) :: erase eq (run eq hist) k).filter _).Perm _
        rw [List.filter_cons, nan]
        cases h : eq k k with
        | true => simpa [h] using ih2
        | false =>
          simp only [Bool.not_false, if_true, Bool.false_eq_true, if_false]
          exact (List.Perm.cons _ ih2).trans (List.perm_append_singleton _ _).symm
    | delete k =>
      refine ⟨fun k' => ?_, ?_⟩
      · rw [lookup_delete]
        show ((erase eq (run eq hist) k).filter _).map _ = _
        rw [filter_erase _ _ _ pe]
        split
        · rfl
        · exact ih1 k'
      · rw [unreachable_delete]
        show ((erase eq (run eq hist) k).filter _).Perm _
        rw [nan]; exact ih2
    | clear => exact ⟨fun k' => by rw [lookup_clear]; rfl, by simp [unreachable, step, List.foldl_append]⟩

end Verif.SyncAny
