import Verif.MapFlag.Spec
import Verif.MapFair.Props
import Verif.Conc.Later
/-!
# Lemmas for C176
-/
namespace Verif.MapFlag
open Verif.Conc Verif.Conc.RW Verif.SyncAny
open Verif.SyncMap (Call Res)

variable {K V : Type} [Inhabited V] {eq : K → K → Bool} {k : K} {P : V → Prop}

theorem lookup_snoc (h : List (Op K V)) (op : Op K V) : lookup eq (h ++ [op]) k =
    match op with
    | .set k' v => if eq k k' then some v else lookup eq h k
    | .delete k' => if eq k k' then none else lookup eq h k
    | .clear => none := by
  simp only [lookup, List.foldl_append, List.foldl_cons, List.foldl_nil]
  cases op <;> rfl

/-- After a `Set` of the key, when nobody takes it away, it is there. -/
theorem there {S : List (Nat × Call K V × Res K V)} {h : List (Op K V)} (hl : Legal (SyncKey.histObj eq) S h)
    (hd : ∀ e ∈ S, ∀ k', e.2.1 = .delete k' → eq k k' = false) (hc : ∀ e ∈ S, e.2.1 ≠ .clear) (hp : ∀ e ∈ S, ∀ k' v, e.2.1 = .set k' v → eq k k' = true → P v)
    (hs : ∃ e ∈ S, ∃ k' v, e.2.1 = .set k' v ∧ eq k k' = true) : ∃ v, lookup eq h k = some v ∧ P v := by
  induction hl with
  | nil => obtain ⟨e, h, -⟩ := hs; cases h
  | @snoc S h h' id c r hl st ih =>
    have ih' := fun hs => ih (fun e he => hd e (List.mem_append_left _ he)) (fun e he => hc e (List.mem_append_left _ he)) (fun e he => hp e (List.mem_append_left _ he)) hs
    have last : (id, c, r) ∈ S ++ [(id, c, r)] := by simp
    have before : (∀ k' v, c = .set k' v → eq k k' = false) → ∃ v, lookup eq h k = some v ∧ P v := by
      intro hn
      refine ih' ?_
      obtain ⟨e, he, k', v, h1, h2⟩ := hs
      rcases List.mem_append.1 he with he | he
      · exact ⟨e, he, k', v, h1, h2⟩
      · rw [List.mem_singleton] at he
        subst he
        rw [hn k' v h1] at h2
        cases h2
    cases c with
    | get => obtain ⟨-, rfl⟩ := st; exact before (fun _ _ h => by cases h)
    | has => obtain ⟨-, rfl⟩ := st; exact before (fun _ _ h => by cases h)
    | size => obtain ⟨-, rfl⟩ := st; exact before (fun _ _ h => by cases h)
    | keys => obtain ⟨-, rfl⟩ := st; exact before (fun _ _ h => by cases h)
    | values => obtain ⟨-, rfl⟩ := st; exact before (fun _ _ h => by cases h)
    | set k1 v1 =>
      obtain ⟨-, rfl⟩ := st
      rw [lookup_snoc]
      cases e1 : eq k k1 with
      | true => exact ⟨v1, by simp [e1], hp _ last k1 v1 rfl e1⟩
      | false => simpa [e1] using before (fun k' v h => by cases h; exact e1)
    | delete k1 =>
      obtain ⟨-, rfl⟩ := st
      rw [lookup_snoc]
      simpa [hd _ last k1 rfl] using before (fun _ _ h => by cases h)
    | clear => exact absurd rfl (hc _ last)

end Verif.MapFlag
