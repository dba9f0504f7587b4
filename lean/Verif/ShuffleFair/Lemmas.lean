import Verif.ShuffleFair.Spec
import Verif.Slicex.Lemmas
import Mathlib.Algebra.Group.End
import Mathlib.Data.Fintype.BigOperators
import Mathlib.Algebra.BigOperators.Fin
/-!
# Lemmas for C135
-/
namespace Verif.ShuffleFair
open Verif.Go Verif.Slicex

variable {T : Type} [Inhabited T]

/-- Where the elements come from. -/
def perm (d : Nat → Nat) : Nat → Equiv.Perm Nat
  | 0 => 1
  | i + 1 => Equiv.swap i (d i % (i + 1)) * perm d i

theorem loop_exact {s : Sl} (d : Nat → Nat) : ∀ (n : Nat) (h : Hp T), n ≤ s.len →
    ∃ h', shuffleLoop s d n h = .ret h' ∧ ∀ m, m < s.len → h'.mem s.arr (s.off + m) = h.mem s.arr (s.off + perm d n m)
  | 0, h, _ => ⟨h, rfl, fun _ _ => rfl⟩
  | i + 1, h, hn => by
    rw [shuffleLoop]
    split
    · next hi =>
      subst hi
      exact ⟨h, rfl, fun m _ => by simp [perm, Nat.mod_one]⟩
    · have hj : d i % (i + 1) < i + 1 := Nat.mod_lt _ (by omega)
      obtain ⟨h1, e1, b1, m1, f1⟩ := swap_spec h (s := s) (i := i) (j := d i % (i + 1)) (by omega) (by omega)
      rw [e1, Outcome.bind_ret]
      obtain ⟨h2, e2, m2⟩ := loop_exact (s := s) d i h1 (by omega)
      have hfix : ∀ n k, n ≤ k → perm d n k = k := by
        intro n
        induction n with
        | zero => intro k _; rfl
        | succ n ih =>
          intro k hk
          have : d n % (n + 1) < n + 1 := Nat.mod_lt _ (by omega)
          rw [perm, Equiv.Perm.mul_apply, ih k (by omega), Equiv.swap_apply_of_ne_of_ne (by omega) (by omega)]
      refine ⟨h2, e2, fun m hm => ?_⟩
      have hb : perm d i m < s.len := by
        by_contra hc
        have h3 := hfix i (perm d i m) (by omega)
        have := (perm d i).injective h3
        omega
      rw [m2 m hm, m1 _ hb, perm, Equiv.Perm.mul_apply, Equiv.swap_apply_def]

theorem perm_fix (d : Nat → Nat) : ∀ n k, n ≤ k → perm d n k = k
  | 0, _, _ => rfl
  | n + 1, k, hk => by
    have : d n % (n + 1) < n + 1 := Nat.mod_lt _ (by omega)
    rw [perm, Equiv.Perm.mul_apply, perm_fix d n k (by omega), Equiv.swap_apply_of_ne_of_ne (by omega) (by omega)]

theorem perm_lt (d : Nat → Nat) (n k : Nat) (hk : k < n) : perm d n k < n := by
  by_contra hc
  have := (perm d n).injective (perm_fix d n (perm d n k) (by omega))
  omega

theorem perm_top (d : Nat → Nat) (i : Nat) : perm d (i + 1) i = d i % (i + 1) := by
  rw [perm, Equiv.Perm.mul_apply, perm_fix d i i (Nat.le_refl _), Equiv.swap_apply_left]

theorem perm_inj (d e : Nat → Nat) : ∀ n, perm d n = perm e n → ∀ i, i < n → d i % (i + 1) = e i % (i + 1)
  | 0, _, _, hi => absurd hi (Nat.not_lt_zero _)
  | n + 1, h, i, hi => by
    have ht : d n % (n + 1) = e n % (n + 1) := by rw [← perm_top d n, ← perm_top e n, h]
    rcases Nat.lt_succ_iff_lt_or_eq.1 hi with hl | rfl
    · refine perm_inj d e n ?_ i hl
      rw [perm, perm, ht] at h
      exact mul_left_cancel h
    · exact ht

theorem perm_congr (d e : Nat → Nat) : ∀ n, (∀ i, i < n → d i = e i) → perm d n = perm e n
  | 0, _ => rfl
  | n + 1, h => by rw [perm, perm, perm_congr d e n (fun i hi => h i (by omega)), h n (by omega)]

theorem perm_surj : ∀ (n : Nat) (r : Equiv.Perm Nat), (∀ k, n ≤ k → r k = k) → ∃ d : Nat → Nat, (∀ i, d i ≤ i) ∧ perm d n = r
  | 0, r, h => ⟨fun _ => 0, fun _ => Nat.zero_le _, Equiv.ext fun k => (h k (Nat.zero_le _)).symm⟩
  | n + 1, r, h => by
    have hle : r n ≤ n := by
      by_contra hc
      have := r.injective (h (r n) (by omega))
      omega
    obtain ⟨d, hd, e⟩ := perm_surj n (Equiv.swap n (r n) * r) (by
      intro k hk
      rw [Equiv.Perm.mul_apply]
      rcases Nat.eq_or_lt_of_le hk with rfl | hk
      · rw [Equiv.swap_apply_right]
      · rw [h k (by omega), Equiv.swap_apply_of_ne_of_ne (by omega) (by omega)])
    refine ⟨fun m => if m = n then r n else d m, fun i => ?_, ?_⟩
    · show (if i = n then r n else d i) ≤ i
      split
      · next hi => rw [hi]; exact hle
      · exact hd i
    · rw [perm, perm_congr _ d n (fun i hi => if_neg (by omega)), e]
      show Equiv.swap n ((if n = n then r n else d n) % (n + 1)) * _ = r
      rw [if_pos rfl, Nat.mod_eq_of_lt (by omega), ← mul_assoc, Equiv.swap_mul_self, one_mul]

/-- The permutation of one sequence of draws. -/
def permOf {n : Nat} (d : Draws n) : Equiv.Perm Nat := perm (source d) n

theorem source_lt {n : Nat} (d : Draws n) (i : Nat) (h : i < n) : source d i % (i + 1) = d ⟨i, h⟩ := by
  rw [source, dif_pos h]
  exact Nat.mod_eq_of_lt (d ⟨i, h⟩).2

theorem permOf_inj {n : Nat} {d e : Draws n} (h : permOf d = permOf e) : d = e := by
  funext i
  have := perm_inj _ _ n h i i.2
  rw [source_lt d i i.2, source_lt e i i.2] at this
  exact Fin.ext this

theorem permOf_surj {n : Nat} (r : Equiv.Perm Nat) (h : ∀ k, n ≤ k → r k = k) : ∃ d : Draws n, permOf d = r := by
  obtain ⟨d, hd, e⟩ := perm_surj n r h
  refine ⟨fun i => ⟨d i, Nat.lt_succ_of_le (hd i)⟩, ?_⟩
  rw [← e]
  exact perm_congr _ _ n fun i hi => by rw [source, dif_pos hi]

theorem gives_iff {h : Hp T} {s : Sl} {d : Draws s.len} {l : List T} :
    Gives h s d l ↔ ∀ k : Nat, l[k]? = (elems h s)[permOf d k]? := by
  obtain ⟨h', e, hm⟩ := loop_exact (source d) s.len h (Nat.le_refl _)
  have key : ∀ k, (elems h' s)[k]? = (elems h s)[permOf d k]? := by
    intro k
    rw [elems_getElem?, elems_getElem?]
    by_cases hk : k < s.len
    · rw [if_pos hk, if_pos (show permOf d k < s.len from perm_lt _ _ _ hk), hm k hk]; rfl
    · rw [if_neg hk, if_neg (show ¬ permOf d k < s.len by rw [permOf, perm_fix _ _ _ (by omega)]; exact hk)]
  constructor
  · rintro ⟨h1, e1, rfl⟩ k
    rw [shuffle, e] at e1
    cases e1
    exact key k
  · intro hl
    exact ⟨h', e, List.ext_getElem? fun k => (key k).trans (hl k).symm⟩

/-- The positions 1, 2, … permuted like 0, 1, … . -/
def shift (t : Equiv.Perm Nat) : Equiv.Perm Nat where
  toFun | 0 => 0 | k + 1 => t k + 1
  invFun | 0 => 0 | k + 1 => t.symm k + 1
  left_inv := by rintro (_ | k) <;> simp
  right_inv := by rintro (_ | k) <;> simp

theorem exists_perm {l l' : List T} (p : l.Perm l') :
    ∃ t : Equiv.Perm Nat, (∀ k, l.length ≤ k → t k = k) ∧ ∀ k : Nat, l'[k]? = l[t k]? := by
  induction p with
  | nil => exact ⟨1, fun _ _ => rfl, fun _ => rfl⟩
  | cons x p ih =>
    obtain ⟨t, h1, h2⟩ := ih
    refine ⟨shift t, ?_, ?_⟩
    · rintro (_ | k) hk
      · rfl
      · show t k + 1 = k + 1
        rw [h1 k (by simpa using hk)]
    · rintro (_ | k)
      · rfl
      · exact h2 k
  | swap x y l =>
    refine ⟨Equiv.swap 0 1, ?_, ?_⟩
    · intro k hk
      simp only [List.length_cons] at hk
      exact Equiv.swap_apply_of_ne_of_ne (by omega) (by omega)
    · rintro (_ | _ | k)
      · rfl
      · rfl
      · rw [Equiv.swap_apply_of_ne_of_ne (by omega) (by omega)]; rfl
  | trans p1 p2 ih1 ih2 =>
    obtain ⟨t1, a1, b1⟩ := ih1
    obtain ⟨t2, a2, b2⟩ := ih2
    refine ⟨t1 * t2, fun k hk => ?_, fun k => ?_⟩
    · rw [Equiv.Perm.mul_apply, a2 k (by rw [← p1.length_eq]; exact hk), a1 k hk]
    · rw [Equiv.Perm.mul_apply, b2, b1]

theorem ways_le {h : Hp T} {s : Sl} {l l' : List T} (hl : l.length = s.len) (p : l.Perm l') : ways h s l ≤ ways h s l' := by
  obtain ⟨t, h1, h2⟩ := exists_perm p
  have hex : ∀ d : Draws s.len, ∃ e : Draws s.len, permOf e = permOf d * t := fun d =>
    permOf_surj _ fun k hk => by
      rw [Equiv.Perm.mul_apply, h1 k (by omega)]; exact perm_fix _ _ _ hk
  choose f hf using hex
  refine Nat.card_le_card_of_injective
    (fun d : { d : Draws s.len // Gives h s d l } => (⟨f d.1, ?_⟩ : { d : Draws s.len // Gives h s d l' })) ?_
  · refine gives_iff.2 fun k => ?_
    rw [h2, gives_iff.1 d.2, hf, Equiv.Perm.mul_apply]
  · intro a b hab
    have : f a.1 = f b.1 := congrArg Subtype.val hab
    have h3 := hf a.1
    rw [this, hf b.1] at h3
    exact Subtype.ext (permOf_inj (mul_right_cancel h3)).symm

end Verif.ShuffleFair
