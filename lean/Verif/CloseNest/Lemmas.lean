import Mathlib.Logic.Relation
import Verif.CloseNest.Spec
/-!
# Lemmas for nested close managers
-/
namespace Verif.CloseNest
open Verif.CloseMgr Verif.Go

variable {n : Nat} {W : Type} {g : Fin n → List (Item n W)}

theorem loop_nil (l : Finset (Fin n)) (errs : List Err) (w : W) : closeLoop g l [] errs w = .ret (errs, w) := by
  rw [closeLoop]

theorem loop_leaf (l : Finset (Fin n)) (c is errs) (w : W) :
    closeLoop g l (.leaf c :: is) errs w = closeLoop g l is (errs ++ (c w).1.toList) (c w).2 := by
  rw [closeLoop]
  rcases c w with ⟨_ | e, w'⟩ <;> simp

theorem loop_mgr (l : Finset (Fin n)) (m is errs) (w : W) : closeLoop g l (.mgr m :: is) errs w =
    match closeMgr g l m w with
    | .ret (es, w) => closeLoop g l is (errs ++ [.list es]) w
    | .panic => .panic
    | .hang => .hang := by
  rw [closeLoop]
  rfl

theorem mgr_locked {l : Finset (Fin n)} {m} (w : W) (h : m ∈ l) : closeMgr g l m w = .hang := by
  rw [closeMgr, dif_pos h]

theorem mgr_free {l : Finset (Fin n)} {m} (w : W) (h : m ∉ l) :
    closeMgr g l m w = closeLoop g (insert m l) (g m) [] w := by
  rw [closeMgr, dif_neg h]

/-- Induction for the loop: over the free mutexes, then over the list. -/
theorem loop_induct {P : Finset (Fin n) → List (Item n W) → Prop}
    (step : ∀ l is, (∀ m, m ∉ l → P (insert m l) (g m)) →
      (∀ i is', is = i :: is' → P l is') → P l is) (l : Finset (Fin n)) (is : List (Item n W)) : P l is := by
  generalize hk : lᶜ.card = k
  induction k using Nat.strong_induction_on generalizing l is with
  | _ k ih =>
    have h1 : ∀ m, m ∉ l → P (insert m l) (g m) := by
      intro m hm
      refine ih _ ?_ _ _ rfl
      rw [← hk, Finset.compl_insert]
      exact Finset.card_erase_lt_of_mem (by simpa using hm)
    induction is with
    | nil => exact step l [] h1 (by simp)
    | cons i is ihl => exact step l _ h1 (by rintro i' is' e; cases e; exact ihl)

theorem loop_ret (F : List Err → List Err) (hF : ∀ a b, F (a ++ b) = F a ++ F b) (hL : ∀ es, F [.list es] = F es)
    (l : Finset (Fin n)) (is : List (Item n W)) : ∀ (errs : List Err) (w : W) (es : List Err) (w' : W),
    closeLoop g l is errs w = .ret (es, w') →
    ∃ ls, Unfolds g is ls ∧ w' = (errorsOf ls w).2 ∧ F es = F errs ++ F (errorsOf ls w).1 := by
  have h0 : F [] = [] := by
    have := hF [] []
    simpa using this
  refine loop_induct (g := g) (P := fun l is => ∀ errs w es w', closeLoop g l is errs w = .ret (es, w') →
    ∃ ls, Unfolds g is ls ∧ w' = (errorsOf ls w).2 ∧ F es = F errs ++ F (errorsOf ls w).1) ?_ l is
  intro l is hm hi errs w es w' h
  rcases is with _ | ⟨c | m, is⟩
  · rw [loop_nil] at h
    cases h
    exact ⟨[], .nil, rfl, by simp [errorsOf, h0]⟩
  · rw [loop_leaf] at h
    obtain ⟨ls, u, e1, e2⟩ := hi _ is rfl _ _ _ _ h
    exact ⟨c :: ls, .leaf u, e1, by simp [errorsOf, e2, hF]⟩
  · rw [loop_mgr] at h
    by_cases hl : m ∈ l
    · rw [mgr_locked w hl] at h
      simp at h
    · rw [mgr_free w hl] at h
      split at h
      · next es1 w1 e =>
        obtain ⟨ls1, u1, a1, a2⟩ := hm m hl _ _ _ _ e
        obtain ⟨ls2, u2, b1, b2⟩ := hi _ is rfl _ _ _ _ h
        have e3 : ∀ (a b : List (W → Option Err × W)) (w : W), errorsOf (a ++ b) w =
            ((errorsOf a w).1 ++ (errorsOf b (errorsOf a w).2).1, (errorsOf b (errorsOf a w).2).2) := by
          intro a b
          induction a with
          | nil => intro w; simp [errorsOf]
          | cons c a ih => intro w; simp [errorsOf, ih]
        refine ⟨ls1 ++ ls2, .mgr u1 u2, ?_, ?_⟩
        · rw [e3, b1, a1]
        · rw [e3, b2, hF, hL, a2, a1, h0]
          simp [hF]
      · simp at h
      · simp at h

theorem loop_no_panic (l : Finset (Fin n)) (is : List (Item n W)) (errs : List Err) (w : W) :
    closeLoop g l is errs w ≠ .panic := by
  refine loop_induct (g := g) (P := fun l is => ∀ errs w, closeLoop g l is errs w ≠ .panic) ?_ l is errs w
  intro l is hm hi errs w
  rcases is with _ | ⟨c | m, is⟩
  · simp [loop_nil]
  · rw [loop_leaf]; exact hi _ is rfl _ _
  · rw [loop_mgr]
    by_cases hl : m ∈ l
    · simp [mgr_locked w hl]
    · rw [mgr_free w hl]
      have := hm m hl [] w
      split
      · exact hi _ is rfl _ _
      · next e => exact absurd e this
      · simp

theorem Below.mono {is js : List (Item n W)} {m : Fin n} (h : ∀ k, Item.mgr k ∈ is → Item.mgr k ∈ js)
    (b : Below g is m) : Below g js m := by
  cases b with
  | here a => exact .here (h _ a)
  | there a b => exact .there (h _ a) b

theorem Below.trans {is : List (Item n W)} {k m : Fin n} (h : Below g is k) (h' : Below g (g k) m) : Below g is m := by
  induction h with
  | here a => exact .there a h'
  | there a _ ih => exact .there a (ih h')

theorem loop_acyclic (l : Finset (Fin n)) (is : List (Item n W)) (errs : List Err) (w : W) (ha : Acyclic g is)
    (hl : ∀ k ∈ l, ∀ m, Item.mgr m ∈ is → Below g (g k) m) : ∃ r, closeLoop g l is errs w = .ret r := by
  revert errs w ha hl
  refine loop_induct (g := g) (P := fun l is => ∀ (errs : List Err) (w : W), Acyclic g is →
    (∀ k ∈ l, ∀ m, Item.mgr m ∈ is → Below g (g k) m) → ∃ r, closeLoop g l is errs w = .ret r) ?_ l is
  intro l is hm hi errs w ha hl
  rcases is with _ | ⟨c | m, is⟩
  · exact ⟨_, loop_nil _ _ _⟩
  · rw [loop_leaf]
    exact hi _ is rfl _ _ (fun k b => ha k (b.mono (by simp +contextual))) (fun k hk m h => hl k hk m (by simp [h]))
  · have hml : m ∉ l := fun h => ha m (.here (by simp)) (hl m h m (by simp))
    obtain ⟨⟨es, w1⟩, h1⟩ := hm m hml [] w (fun k b => ha k (.there (List.mem_cons_self ..) b)) (by
      intro k hk m' h'
      rcases Finset.mem_insert.1 hk with rfl | hk
      · exact .here h'
      · exact (hl k hk m (by simp)).trans (.here h'))
    rw [loop_mgr, mgr_free w hml, h1]
    exact hi _ is rfl _ _ (fun k b => ha k (b.mono (by simp +contextual))) (fun k hk m h => hl k hk m (by simp [h]))

/-- `m'` is registered with `m`. -/
def In (g : Fin n → List (Item n W)) (m' m : Fin n) : Prop := Item.mgr m' ∈ g m

theorem acc_of_unfolds {is : List (Item n W)} {ls} (u : Unfolds g is ls) : ∀ m, Item.mgr m ∈ is → Acc (In g) m := by
  induction u with
  | nil => simp
  | leaf _ ih => intro m h; exact ih m (by simpa using h)
  | mgr _ _ ih1 ih2 =>
    intro m h
    rcases List.mem_cons.1 h with e | h
    · cases e
      exact ⟨_, fun k hk => ih1 k hk⟩
    · exact ih2 m h

theorem transGen_of_below {is : List (Item n W)} {m : Fin n} (b : Below g is m) : ∀ k, is = g k →
    Relation.TransGen (In g) m k := by
  induction b with
  | here a => rintro k rfl; exact .single a
  | there a _ ih => rintro k rfl; exact (ih _ rfl).tail a

theorem acc_below {is : List (Item n W)} {m : Fin n} (b : Below g is m)
    (h : ∀ m, Item.mgr m ∈ is → Acc (In g) m) : Acc (In g) m := by
  induction b with
  | here a => exact h _ a
  | there a _ ih => exact ih fun m hm => (h _ a).inv hm

theorem unfolds_acyclic {is : List (Item n W)} {ls} (u : Unfolds g is ls) : Acyclic g is := by
  intro k b c
  have h := (acc_below b (acc_of_unfolds u)).transGen
  have t := transGen_of_below c k rfl
  clear b c u
  induction h with
  | intro x _ ih => exact ih x t t

theorem unfolds_iff (is : List (Item n W)) : (∃ ls, Unfolds g is ls) ↔ Acyclic g is := by
  constructor
  · rintro ⟨ls, u⟩
    exact unfolds_acyclic u
  · intro h
    -- close with closers that do nothing
    have key : ∀ (l : Finset (Fin n)) (is : List (Item n W)), Acyclic g is →
        (∀ k ∈ l, ∀ m, Item.mgr m ∈ is → Below g (g k) m) → ∃ ls, Unfolds g is ls := by
      intro l is
      refine loop_induct (g := g) (P := fun l is => Acyclic g is →
        (∀ k ∈ l, ∀ m, Item.mgr m ∈ is → Below g (g k) m) → ∃ ls, Unfolds g is ls) ?_ l is
      intro l is hm hi ha hl
      rcases is with _ | ⟨c | m, is⟩
      · exact ⟨[], .nil⟩
      · obtain ⟨ls, u⟩ := hi _ is rfl (fun k b => ha k (b.mono (by simp +contextual)))
          (fun k hk m h => hl k hk m (by simp [h]))
        exact ⟨_, .leaf u⟩
      · have hml : m ∉ l := fun h => ha m (.here (by simp)) (hl m h m (by simp))
        obtain ⟨ls1, u1⟩ := hm m hml (fun k b => ha k (.there (List.mem_cons_self ..) b)) (by
          intro k hk m' h'
          rcases Finset.mem_insert.1 hk with rfl | hk
          · exact .here h'
          · exact (hl k hk m (by simp)).trans (.here h'))
        obtain ⟨ls, u⟩ := hi _ is rfl (fun k b => ha k (b.mono (by simp +contextual)))
          (fun k hk m h => hl k hk m (by simp [h]))
        exact ⟨_, .mgr u1 u⟩
    exact key ∅ is h (by simp)

theorem unfolds_unique {is : List (Item n W)} {a b} (u : Unfolds g is a) (v : Unfolds g is b) : a = b := by
  induction u generalizing b with
  | nil => cases v; rfl
  | leaf _ ih => cases v with | leaf v => rw [ih v]
  | mgr _ _ ih1 ih2 => cases v with | mgr v1 v2 => rw [ih1 v1, ih2 v2]

theorem flats_append (a b : List Err) : flats (a ++ b) = flats a ++ flats b := by
  induction a with
  | nil => rfl
  | cons e a ih => simp [flats, ih]

theorem partsAll_append (a b : List Err) : partsAll (a ++ b) = partsAll a ++ partsAll b := by
  induction a with
  | nil => rfl
  | cons e a ih => simp [partsAll, ih]

theorem loop_length (l : Finset (Fin n)) (is : List (Item n W)) (errs : List Err) (w : W) (es : List Err) (w' : W)
    (h : closeLoop g l is errs w = .ret (es, w')) :
    es = [] ↔ errs = [] ∧ ∃ cs, is = cs.map Item.leaf ∧ (errorsOf cs w).1 = [] := by
  induction is generalizing errs w with
  | nil =>
    rw [loop_nil] at h
    cases h
    constructor
    · rintro rfl; exact ⟨rfl, [], rfl, rfl⟩
    · rintro ⟨rfl, _⟩; rfl
  | cons i is ih =>
    cases i with
    | leaf c =>
      rw [loop_leaf] at h
      rw [ih _ _ h]
      constructor
      · rintro ⟨h1, cs, rfl, h2⟩
        simp only [List.append_eq_nil_iff] at h1
        exact ⟨h1.1, c :: cs, rfl, by simp [errorsOf, h1.2, h2]⟩
      · rintro ⟨rfl, cs, h1, h2⟩
        cases cs with
        | nil => simp at h1
        | cons c' cs =>
          simp only [List.map_cons, List.cons.injEq, Item.leaf.injEq] at h1
          obtain ⟨rfl, rfl⟩ := h1
          simp only [errorsOf, List.append_eq_nil_iff] at h2
          exact ⟨by simp [h2.1], cs, rfl, h2.2⟩
    | mgr m =>
      rw [loop_mgr] at h
      split at h
      · next es1 w1 e =>
        rw [ih _ _ h]
        constructor
        · rintro ⟨h1, _⟩; simp at h1
        · rintro ⟨_, cs, h1, _⟩; cases cs <;> simp at h1
      · simp at h
      · simp at h

theorem InOrder.grow {ms : List (List Char)} {s : List Char} (h : InOrder ms s) (a : List Char) : InOrder ms (a ++ s) := by
  cases h with
  | nil => exact .nil _
  | cons x b h => rw [← List.append_assoc, ← List.append_assoc]; exact .cons _ _ h

theorem InOrder.append {ms ms' : List (List Char)} {s s' : List Char} (h : InOrder ms s) (h' : InOrder ms' s') :
    InOrder (ms ++ ms') (s ++ s') := by
  induction h with
  | nil s => exact h'.grow s
  | cons a b h ih => rw [List.append_assoc]; exact .cons _ _ ih

mutual
theorem text_parts (t : Texts) : ∀ e, InOrder ((parts e).map (text t)) (text t e)
  | .list es => by rw [parts, text]; exact texts_parts t es
  | .plain i => by
    have := InOrder.cons (m := text t (.plain i)) [] [] (.nil [])
    simpa [parts] using this
  | .wrap i e => by
    have := InOrder.cons (m := text t (.wrap i e)) [] [] (.nil [])
    simpa [parts] using this

theorem texts_parts (t : Texts) : ∀ es, InOrder ((partsAll es).map (text t)) (texts t es)
  | [] => .nil _
  | e :: es => by
    have h1 := text_parts t e
    have h2 := texts_parts t es
    simp only [partsAll, texts, List.map_append, List.append_assoc]
    exact (h1.append (h2.grow newline)).grow (header t e)
end

theorem flat_asList : ∀ e, (asList e = none → flat e = [e]) ∧ ∀ es, asList e = some es → flat e = flats es
  | .list es => ⟨by simp [asList], by simp [asList, flat]⟩
  | .plain i => ⟨by simp [flat], by simp [asList]⟩
  | .wrap i e => by
    refine ⟨fun h => ?_, fun es h => ?_⟩
    · rw [asList] at h
      rw [flat, h]
    · rw [asList] at h
      rw [flat, h]
      exact (flat_asList e).2 es h

end Verif.CloseNest
