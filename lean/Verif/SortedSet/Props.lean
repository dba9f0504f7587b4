import Verif.SortedSet.Lemmas
/-!
# C139: a slice kept with `Search`, `Insert` and `Delete` is a sorted collection
-/
namespace Verif.SortedSet
open Verif.Go Verif.Slicex

variable {T : Type} [LinearOrder T] [Inhabited T]

/-- **C139.** Whatever is added, added once, removed and looked up, and however `append` grows the arrays: every
call returns, the slice stays in order, holds exactly what a collection would hold, and each search says whether
its element was there. -/
theorem C139_collection (h : Hp T) (s : Sl) (ops : List (Op T)) (o : s.Ok h) (hl : s.len + ops.length ≤ 2 ^ 63)
    (hs : (elems h s).Pairwise fun a b => a ≤ b) :
    ∃ h' s', run (h, s) ops = .ret ((h', s'), answers (elems h s : Multiset T) ops) ∧ s'.Ok h' ∧
      (elems h' s').Pairwise (fun a b => a ≤ b) ∧ (elems h' s' : Multiset T) = afterAll (elems h s : Multiset T) ops := by
  obtain ⟨w', e, a, b, c⟩ := run_spec ops (h, s) o hl hs
  exact ⟨w'.1, w'.2, e, a, b, c⟩

/-- Two histories that leave the same collection leave the same slice content. -/
theorem C139_history (h₁ h₂ : Hp T) (s₁ s₂ : Sl) (ops₁ ops₂ : List (Op T)) (o₁ : s₁.Ok h₁) (o₂ : s₂.Ok h₂)
    (hl₁ : s₁.len + ops₁.length ≤ 2 ^ 63) (hl₂ : s₂.len + ops₂.length ≤ 2 ^ 63)
    (hs₁ : (elems h₁ s₁).Pairwise fun a b => a ≤ b) (hs₂ : (elems h₂ s₂).Pairwise fun a b => a ≤ b)
    (same : afterAll (elems h₁ s₁ : Multiset T) ops₁ = afterAll (elems h₂ s₂ : Multiset T) ops₂) :
    ∃ h₁' s₁' h₂' s₂' b₁ b₂, run (h₁, s₁) ops₁ = .ret ((h₁', s₁'), b₁) ∧ run (h₂, s₂) ops₂ = .ret ((h₂', s₂'), b₂) ∧
      elems h₁' s₁' = elems h₂' s₂' := by
  obtain ⟨h₁', s₁', e₁, _, p₁, m₁⟩ := C139_collection h₁ s₁ ops₁ o₁ hl₁ hs₁
  obtain ⟨h₂', s₂', e₂, _, p₂, m₂⟩ := C139_collection h₂ s₂ ops₂ o₂ hl₂ hs₂
  refine ⟨h₁', s₁', h₂', s₂', _, _, e₁, e₂, ?_⟩
  have hp : (elems h₁' s₁').Perm (elems h₂' s₂') := Multiset.coe_eq_coe.1 (by rw [m₁, m₂, same])
  exact hp.eq_of_pairwise (fun a b _ _ hab hba => le_antisymm hab hba) p₁ p₂

/-- Nothing occurs twice if elements are only ever added once and none occurred twice before. -/
theorem C139_set (h : Hp T) (s : Sl) (ops : List (Op T)) (o : s.Ok h) (hl : s.len + ops.length ≤ 2 ^ 63)
    (hs : (elems h s).Pairwise fun a b => a < b) (once : ∀ x g1 g2, Op.add x g1 g2 ∉ ops) :
    ∃ h' s' b, run (h, s) ops = .ret ((h', s'), b) ∧ (elems h' s').Pairwise fun a b => a < b := by
  obtain ⟨h', s', e, _, p, m⟩ := C139_collection h s ops o hl (hs.imp fun hh => hh.le)
  refine ⟨h', s', _, e, ?_⟩
  have key : ∀ (ops : List (Op T)) (m : Multiset T), m.Nodup → (∀ x g1 g2, Op.add x g1 g2 ∉ ops) → (afterAll m ops).Nodup := by
    intro ops
    induction ops with
    | nil => exact fun m hm _ => hm
    | cons op ops ih =>
      intro m hm hn
      refine ih (after m op) ?_ fun x g1 g2 hx => hn x g1 g2 (List.mem_cons_of_mem _ hx)
      cases op with
      | add x g1 g2 => exact absurd List.mem_cons_self (hn x g1 g2)
      | addOnce x g1 g2 =>
        unfold after
        dsimp only
        split
        · exact hm
        · exact Multiset.nodup_cons.2 ⟨by assumption, hm⟩
      | remove x g1 g2 => exact hm.erase x
      | has x => exact hm
  have nd : (elems h' s').Nodup := by
    have := key ops (elems h s : Multiset T) (Multiset.coe_nodup.2 (hs.imp fun hh => hh.ne)) once
    rw [← m] at this
    exact Multiset.coe_nodup.1 this
  exact (p.and nd).imp fun hh => lt_of_le_of_ne hh.1 hh.2

/-- Adding the elements of a list one by one to an empty slice sorts the list. -/
theorem C139_sorts (h : Hp T) (s : Sl) (l : List T) (o : s.Ok h) (empty : s.len = 0) (hl : l.length ≤ 2 ^ 63) (g1 g2 : Nat) :
    ∃ h' s' b, run (h, s) (l.map fun x => .add x g1 g2) = .ret ((h', s'), b) ∧ (elems h' s').Perm l ∧
      (elems h' s').Pairwise fun a b => a ≤ b := by
  have e0 : elems h s = [] := List.eq_nil_of_length_eq_zero (by rw [elems_length, empty])
  obtain ⟨h', s', e, _, p, m⟩ := C139_collection h s (l.map fun x => Op.add x g1 g2) o (by simpa [empty] using hl)
    (by rw [e0]; exact List.Pairwise.nil)
  refine ⟨h', s', _, e, ?_, p⟩
  have key : ∀ (l : List T) (m : Multiset T), afterAll m (l.map fun x => Op.add x g1 g2) = (l : Multiset T) + m := by
    intro l
    induction l with
    | nil => intro m; simp [afterAll]
    | cons a l ih =>
      intro m
      have := ih (a ::ₘ m)
      simp only [afterAll, List.map_cons, List.foldl_cons, after] at this ⊢
      rw [this, ← Multiset.cons_coe, Multiset.cons_add, Multiset.add_cons]
  rw [key, e0] at m
  exact Multiset.coe_eq_coe.1 (by simpa using m)

/-- Three is added twice, one is added, four is looked for in vain, a three is removed. -/
example : afterAll (0 : Multiset Int) [.add 3 0 0, .addOnce 1 0 0, .add 3 0 0, .has 4, .remove 3 0 0, .addOnce 1 0 0] = {1, 3} ∧
    answers (0 : Multiset Int) [.add 3 0 0, .addOnce 1 0 0, .add 3 0 0, .has 4, .remove 3 0 0, .addOnce 1 0 0] =
      [false, false, true, false, true, true] := by
  constructor <;> decide

end Verif.SortedSet
