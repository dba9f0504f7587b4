import Verif.SyncKey.Spec
import Verif.SyncAny.Lemmas
import Verif.Conc.RWEnds
import Mathlib.Data.List.Perm.Subperm
/-!
# Lemmas
-/
namespace Verif.SyncKey
open Verif.Conc Verif.SyncMap Verif.SyncAny Relation

variable {K V : Type} {eq : K → K → Bool}

theorem perm_toList {α : Type} {l : List α} {o : Option α} (h : l.Perm o.toList) : l = o.toList := by
  cases o with
  | none => exact List.perm_nil.1 h
  | some a => exact List.perm_singleton.1 h

theorem entries_perm (pe : PartialEq eq) (hist : List (Op K V)) {es : List (K × V)} (h : es.Perm (run eq hist)) :
    Entries eq hist es := by
  obtain ⟨h1, h2⟩ := entries_spec pe hist
  refine ⟨fun k => perm_toList ?_, (h.filter _).trans h2⟩
  rw [← h1 k]
  exact (h.filter _).map _

theorem find_lookup (pe : PartialEq eq) (hist : List (Op K V)) (k : K) : find eq (run eq hist) k = lookup eq hist k := by
  have := (entries_spec pe hist).1 k
  rw [SyncAny.find, ← List.head?_filter]
  generalize (run eq hist).filter (fun e => eq e.1 k) = l at this
  cases h : lookup eq hist k with
  | none => rw [h] at this; cases l <;> simp_all
  | some v => rw [h] at this; cases l <;> simp_all

variable [Inhabited V]

theorem readsOnly : RW.ReadsOnly (syncmap (K := K) (V := V) eq) := by
  intro s c acc r s' hw hf
  cases c <;> simp [syncmap, mode, fin] at hw hf <;> first | exact hf.2 | exact hf.2.2

theorem shrinks : RW.Shrinks (syncmap (K := K) (V := V) eq) (fun m _ acc => m.length - acc.length) := by
  rintro m c acc acc' ⟨_, e, rfl, h⟩
  have := h.length_le
  simp at this ⊢
  omega

omit [Inhabited V] in
theorem loop_subperm {m : List (K × V)} {c : Call K V} {acc : List (K × V)} (h : ReflTransGen (iter m c) [] acc) :
    acc.Subperm m := by
  induction h with
  | refl => exact List.nil_subperm
  | tail _ h _ => obtain ⟨_, e, rfl, h⟩ := h; exact h

theorem subperm_more {α : Type} {l m : List α} (h : l.Subperm m) : l.Perm m ∨ ∃ e, (l ++ [e]).Subperm m := by
  obtain ⟨l', hp, hs⟩ := h
  obtain ⟨r, hr⟩ := hs.exists_perm_append
  cases r with
  | nil => exact .inl (hp.symm.trans (by simpa using hr.symm))
  | cons e r =>
    refine .inr ⟨e, ?_⟩
    have : (l ++ (e :: r)).Perm m := (List.Perm.append_right _ hp.symm).trans hr.symm
    refine List.Subperm.trans ?_ this.subperm
    have e' : l ++ e :: r = (l ++ [e]) ++ r := by simp
    rw [e']
    exact (List.sublist_append_left _ _).subperm

theorem live : RW.Live (syncmap (K := K) (V := V) eq) := by
  intro m c acc h
  have hs := loop_subperm h
  cases c with
  | keys =>
    rcases subperm_more hs with hp | ⟨e, he⟩
    · exact .inr ⟨_, _, hp, rfl, rfl⟩
    · exact .inl ⟨_, .inl rfl, e, rfl, he⟩
  | values =>
    rcases subperm_more hs with hp | ⟨e, he⟩
    · exact .inr ⟨_, _, hp, rfl, rfl⟩
    · exact .inl ⟨_, .inr rfl, e, rfl, he⟩
  | _ => exact .inr ⟨_, _, rfl, rfl⟩

theorem sim_step (pe : PartialEq eq) (hist : List (Op K V)) (c : Call K V) (r : Res K V) (m' : List (K × V))
    (h : (RW.seqObj (syncmap eq)).step (run eq hist) c r m') :
    ∃ hist', histStep eq hist c r hist' ∧ m' = run eq hist' := by
  obtain ⟨acc, _, hf⟩ := h
  cases c with
  | get k => obtain ⟨rfl, rfl⟩ := hf; exact ⟨hist, ⟨by rw [find_lookup pe], rfl⟩, rfl⟩
  | has k => obtain ⟨rfl, rfl⟩ := hf; exact ⟨hist, ⟨by rw [find_lookup pe], rfl⟩, rfl⟩
  | size => obtain ⟨rfl, rfl⟩ := hf; exact ⟨hist, ⟨⟨_, entries_perm pe hist (.refl _), rfl⟩, rfl⟩, rfl⟩
  | keys => obtain ⟨hp, rfl, rfl⟩ := hf; exact ⟨hist, ⟨⟨_, entries_perm pe hist hp, rfl⟩, rfl⟩, rfl⟩
  | values => obtain ⟨hp, rfl, rfl⟩ := hf; exact ⟨hist, ⟨⟨_, entries_perm pe hist hp, rfl⟩, rfl⟩, rfl⟩
  | set k v => obtain ⟨rfl, rfl⟩ := hf; exact ⟨_, ⟨rfl, rfl⟩, (run_append hist (.set k v)).symm⟩
  | delete k => obtain ⟨rfl, rfl⟩ := hf; exact ⟨_, ⟨rfl, rfl⟩, (run_append hist (.delete k)).symm⟩
  | clear => obtain ⟨rfl, rfl⟩ := hf; exact ⟨_, ⟨rfl, rfl⟩, (run_append hist (.clear)).symm⟩

end Verif.SyncKey
