import Verif.SliceUndo.Model
/-!
# Lemmas for undo
-/
namespace Verif.SliceUndo
open Verif.Go Verif.Slicex Verif.SliceAll

variable {T : Type} [Inhabited T] {lim : Nat}

/-- Calls that turn `l` into `l'` and cannot fail. -/
inductive Safe (lim : Nat) : List T → List (Op T) → List T → Prop
  | nil (l : List T) : Safe lim l [] l
  | cons {l m l' : List T} {op : Op T} {ops : List (Op T)} : (l.length : Int) < 2 ^ 63 → op.Typed → op.Fits l.length →
      ¬ Panics lim l op → (∀ x r, Effect l op x r → x = m) → Safe lim m ops l' → Safe lim l (op :: ops) l'

theorem Safe.append {l m l' : List T} {a b : List (Op T)} (h : Safe lim l a m) (h' : Safe lim m b l') : Safe lim l (a ++ b) l' := by
  induction h with
  | nil => exact h'
  | cons h1 h2 h3 h4 h5 _ ih => exact .cons h1 h2 h3 h4 h5 (ih h')

theorem run_safe (hlim : (lim : Int) < 2 ^ 63) {l l' : List T} {ops : List (Op T)} (sf : Safe lim l ops l') :
    ∀ (cs : Nat → Choice) (w : Hp T × Sl), w.2.Ok w.1 → elems w.1 w.2 = l →
    ∃ w', runOps lim cs w ops = .ret w' ∧ elems w'.1 w'.2 = l' ∧ w'.2.Ok w'.1 := by
  induction sf with
  | nil l => intro cs w o e; exact ⟨w, rfl, e, o⟩
  | @cons l m l' op ops h1 h2 h3 h4 h5 _ ih =>
    rintro cs ⟨h, s⟩ o rfl
    rw [elems_length] at h1 h3
    rcases C127_step lim hlim (cs 0) h s o h1 op h2 h3 with ⟨hp, _⟩ | ⟨h', s', r, e, o', _, he⟩
    · exact absurd hp h4
    · obtain ⟨w', e', rest⟩ := ih (fun n => cs (n + 1)) (h', s') o' (h5 _ _ he)
      exact ⟨w', by simp only [runOps, e, Outcome.bind_ret]; exact e', rest⟩

theorem bound_nat {k n : Nat} (h : k ≤ n) : bound (k : Int) n = k := by simp only [bound]; omega
theorem bound_le (i : Int) (n : Nat) : bound i n ≤ n := by simp only [bound]; omega
theorem lo_le_hi (i j : Int) (n : Nat) : lo i j n ≤ hi i j n := by simp only [lo, hi]; omega
theorem hi_le (i j : Int) (n : Nat) : hi i j n ≤ n := by have := bound_le i n; have := bound_le j n; simp only [hi]; omega
theorem lo_nat {a b n : Nat} (h : a ≤ b) (h' : b ≤ n) : lo (a : Int) (b : Int) n = a := by
  simp only [lo, bound_nat (Nat.le_trans h h'), bound_nat h']; omega
theorem hi_nat {a b n : Nat} (h : a ≤ b) (h' : b ≤ n) : hi (a : Int) (b : Int) n = b := by
  simp only [hi, bound_nat (Nat.le_trans h h'), bound_nat h']; omega

theorem inInt {k : Nat} (h : (k : Int) < 2 ^ 63) : InInt64 (k : Int) := by simp only [InInt64]; omega

omit [Inhabited T] in
/-- A list in three parts. -/
theorem parts (l : List T) {a b : Nat} (h : a ≤ b) : l.take a ++ ((l.take b).drop a ++ l.drop b) = l := by
  rw [← List.append_assoc]
  have : l.take a ++ (l.take b).drop a = l.take b := by
    have e : (l.take b).take a = l.take a := by rw [List.take_take, Nat.min_eq_left h]
    rw [← e, List.take_append_drop]
  rw [this, List.take_append_drop]

theorem getD_lt {l : List T} {n : Nat} (h : n < l.length) : l.getD n default = l[n] := by simp [List.getD, h]

theorem one {l l' : List T} {op : Op T} (h1 : (l.length : Int) < 2 ^ 63) (h2 : op.Typed) (h3 : op.Fits l.length)
    (h4 : ¬ Panics lim l op) (h5 : ∀ x r, Effect l op x r → x = l') : Safe lim l [op] l' :=
  .cons h1 h2 h3 h4 h5 (.nil _)

theorem refill (l : List T) {l' : List T} (h : (l'.length : Int) < 2 ^ 63) : Safe lim l' [.clear, .expand 0 l] l := by
  refine .cons (m := []) h trivial trivial (fun h => h) (fun x r e => e.1) (one (by simp) ?_ trivial (fun h => h) (fun x r e => ?_))
  · show InInt64 0; decide
  · rw [e.1]; simp

/-- The calls written down for a call take it back. -/
theorem undo_safe {l l' : List T} {op : Op T} {r : Res T} (ht : op.Typed) (hf : op.Fits l.length) (hp : ¬ Panics lim l op)
    (hl : (l.length : Int) < 2 ^ 63) (hl' : (l'.length : Int) < 2 ^ 63) (e : Effect l op l' r) : Safe lim l' (undo l op) l := by
  cases op with
  | set i v =>
    obtain ⟨rfl, -⟩ := e
    refine one hl' ht trivial (fun h => h) (fun x r e => ?_)
    rw [e.1, List.length_set, List.set_set]
    by_cases h0 : l = []
    · subst h0; simp
    · have : bound i (l.length - 1) < l.length := by
        have := bound_le i (l.length - 1)
        have := List.length_pos_iff.2 h0
        omega
      rw [getD_lt this, List.set_getElem_self]
  | get i => obtain ⟨rfl, -⟩ := e; exact .nil _
  | slice i j =>
    obtain ⟨-, rfl⟩ := e
    simp only [undo]
    generalize (if j < 0 then (l.length : Int) + j else j) = j' at *
    have h1 := lo_le_hi i j' l.length
    have h2 := hi_le i j' l.length
    refine .cons (m := l.take (hi i j' l.length)) hl' (show InInt64 0 by decide) trivial (fun h => h) (fun x r e => ?_)
      (one (by rw [List.length_take]; omega) (inInt (by omega)) trivial (fun h => h) (fun x r e => ?_))
    · rw [e.1]
      have : bound 0 ((l.take (hi i j' l.length)).drop (lo i j' l.length)).length = 0 := by simp [bound]
      rw [this, List.take_zero, List.drop_zero, List.nil_append]
      have e' : (l.take (hi i j' l.length)).take (lo i j' l.length) = l.take (lo i j' l.length) := by
        rw [List.take_take, Nat.min_eq_left h1]
      rw [← e', List.take_append_drop]
    · rw [e.1]
      have : bound (hi i j' l.length : Nat) (l.take (hi i j' l.length)).length = hi i j' l.length :=
        bound_nat (by rw [List.length_take]; omega)
      have e' : (l.take (hi i j' l.length)).drop (hi i j' l.length) = [] := List.drop_eq_nil_of_le (by rw [List.length_take]; omega)
      rw [this, List.take_take, Nat.min_self, e', List.append_nil, List.take_append_drop]
  | splice i j vs =>
    obtain ⟨rfl, -⟩ := e
    have h1 := lo_le_hi i j l.length
    have h2 := hi_le i j l.length
    have hlen : (spliceSpec l i j vs).length = lo i j l.length + vs.length + (l.length - hi i j l.length) := by
      simp only [spliceSpec, List.length_append, List.length_take, List.length_drop]; omega
    rw [hlen] at hl'
    refine one (by rw [hlen]; exact hl') ⟨inInt (by omega), by exact_mod_cast inInt (by push_cast at *; omega)⟩ trivial (fun h => h)
      (fun x r e => ?_)
    rw [e.1, spliceSpec, ← Nat.cast_add, lo_nat (by omega) (by omega), hi_nat (by omega) (by omega), spliceSpec]
    have e1 : (l.take (lo i j l.length)).length = lo i j l.length := by rw [List.length_take]; omega
    have e2 : (l.take (lo i j l.length) ++ vs ++ l.drop (hi i j l.length)).take (lo i j l.length) = l.take (lo i j l.length) := by
      rw [List.append_assoc, List.take_append_of_le_length (by omega), List.take_of_length_le (by omega)]
    have e3 : (l.take (lo i j l.length) ++ vs ++ l.drop (hi i j l.length)).drop (lo i j l.length + vs.length) =
        l.drop (hi i j l.length) := by
      rw [List.drop_append_of_le_length (by simp; omega), List.drop_eq_nil_of_le (by simp), List.nil_append]
    rw [e2, e3, List.append_assoc]
    exact parts l h1
  | expand i vs =>
    obtain ⟨rfl, -⟩ := e
    have h2 := bound_le i l.length
    have hlen : (l.take (bound i l.length) ++ vs ++ l.drop (bound i l.length)).length = l.length + vs.length := by
      simp only [List.length_append, List.length_take, List.length_drop]; omega
    rw [hlen] at hl'
    refine one (by rw [hlen]; exact hl') ⟨inInt (by omega), by exact_mod_cast inInt (by push_cast at *; omega)⟩ trivial (fun h => h)
      (fun x r e => ?_)
    rw [e.1, hlen, ← Nat.cast_add, lo_nat (by omega) (by omega), hi_nat (by omega) (by omega)]
    have e1 : (l.take (bound i l.length)).length = bound i l.length := by rw [List.length_take]; omega
    rw [List.append_assoc, List.take_append_of_le_length (by omega), List.take_of_length_le (by omega), ← List.append_assoc,
      List.drop_append_of_le_length (by simp; omega), List.drop_eq_nil_of_le (by simp), List.nil_append, List.take_append_drop]
  | insert i v =>
    obtain ⟨rfl, -⟩ := e
    have h2 := bound_le i l.length
    have hlen := List.length_insertIdx_of_le_length h2 v
    rw [hlen] at hl'
    have hb : (bound i l.length : Int) < 2 ^ 63 - 1 := by push_cast at hl'; omega
    refine one (by rw [hlen]; exact hl') (inInt (by omega)) (by show (_ : Int) ≠ _; omega) (fun h => h) (fun x r e => ?_)
    rw [e.1, deleteSpec, if_pos (by omega), Int.toNat_natCast, List.eraseIdx_insertIdx_self]
  | cut i j =>
    obtain ⟨rfl, -⟩ := e
    have h1 := lo_le_hi i j l.length
    have h2 := hi_le i j l.length
    refine one hl' (inInt (by omega)) trivial (fun h => h) (fun x r e => ?_)
    have e1 : (l.take (lo i j l.length)).length = lo i j l.length := by rw [List.length_take]; omega
    have e2 : (l.take (lo i j l.length)).drop (lo i j l.length) = [] := List.drop_eq_nil_of_le (by omega)
    have e3 : (l.take (lo i j l.length)).take (lo i j l.length) = l.take (lo i j l.length) := List.take_of_length_le (by omega)
    rw [e.1, bound_nat (by rw [List.length_append, e1]; omega), List.take_append_of_le_length (by omega), e3,
      List.drop_append_of_le_length (by omega), e2, List.nil_append, List.append_assoc]
    exact parts l h1
  | delete i =>
    obtain ⟨rfl, -⟩ := e
    simp only [undo]
    split
    · rename_i h
      have hi : i.toNat < l.length := by omega
      refine one hl' ht trivial (fun h => h) (fun x r e => ?_)
      rw [e.1, deleteSpec, if_pos h.1]
      have : bound i (l.eraseIdx i.toNat).length = i.toNat := by
        rw [List.length_eraseIdx_of_lt hi]; simp only [bound]; omega
      rw [this, getD_lt hi, List.insertIdx_eraseIdx_getElem hi]
    · rename_i h
      have : deleteSpec l i = l := by
        rw [deleteSpec]
        split
        · rw [List.eraseIdx_of_length_le]; omega
        · rfl
      rw [this]
      exact .nil _
  | push v =>
    obtain ⟨rfl, -⟩ := e
    exact one hl' trivial trivial (fun h => h) (fun x r e => by rw [e.1]; simp)
  | pop =>
    obtain ⟨rfl, -⟩ := e
    simp only [undo]
    split
    · rename_i h
      rw [List.isEmpty_iff] at h
      subst h
      exact .nil _
    · rename_i h
      have h : l ≠ [] := fun e => h (by simp [e])
      refine one hl' trivial trivial (fun h => h) (fun x r e => ?_)
      rw [e.1, lastD, List.getLast?_eq_getLast_of_ne_nil h, Option.getD_some, List.dropLast_append_getLast]
  | unShift v =>
    obtain ⟨rfl, -⟩ := e
    exact one hl' trivial trivial (fun h => h) (fun x r e => by rw [e.1]; simp)
  | shift =>
    obtain ⟨rfl, -⟩ := e
    simp only [undo]
    cases l with
    | nil => exact .nil _
    | cons a l => exact one hl' trivial trivial (fun h => h) (fun x r e => by rw [e.1]; simp)
  | deleteReplace i =>
    obtain ⟨rfl, -⟩ := e
    have hp : l ≠ [] ∧ i < l.length := by
      simp only [Panics, not_or, not_le] at hp; exact hp
    have hpos := List.length_pos_iff.2 hp.1
    have hlt : i.toNat < l.length := by omega
    have hm : (max i 0).toNat = i.toNat := by omega
    have hlD : lastD l = l.getLast hp.1 := by rw [lastD, List.getLast?_eq_getLast_of_ne_nil hp.1, Option.getD_some]
    refine .cons (m := l.set i.toNat (lastD l)) hl' trivial trivial (fun h => h) (fun x r e => ?_)
      (one (by rw [List.length_set]; exact hl) ht trivial (fun h => h) (fun x r e => ?_))
    · rw [e.1, hm]
      have hne : l.set i.toNat (lastD l) ≠ [] := by simp [hp.1]
      have hlast : (l.set i.toNat (lastD l)).getLast hne = lastD l := by
        rw [List.getLast_eq_getElem]
        by_cases h : i.toNat = l.length - 1
        · simp [h]
        · simp only [List.length_set]
          rw [List.getElem_set_ne (by omega)]
          exact (hlD.trans (List.getLast_eq_getElem hp.1)).symm
      have := List.dropLast_append_getLast hne
      rw [hlast] at this
      exact this
    · rw [e.1, List.length_set]
      have : bound i (l.length - 1) = i.toNat := by simp only [bound]; omega
      rw [this, List.set_set, getD_lt hlt, List.set_getElem_self]
  | reverse =>
    obtain ⟨rfl, -⟩ := e
    exact one hl' trivial trivial (fun h => h) (fun x r e => by rw [e.1, List.reverse_reverse])
  | rotate n =>
    obtain ⟨rfl, -⟩ := e
    have hf : n ≠ -2 ^ 63 := hf
    have ht : InInt64 n := ht
    simp only [InInt64] at ht
    refine one hl' (show InInt64 (-n) by simp only [InInt64]; omega) (show -n ≠ -2 ^ 63 by omega) (fun h => h) (fun x r e => ?_)
    rw [e.1, List.length_rotate, List.rotate_rotate]
    by_cases h0 : l = []
    · subst h0; simp
    · have hpos : (0 : Int) < l.length := by have := List.length_pos_iff.2 h0; omega
      have hk : l.length ∣ (n % (l.length : Int)).toNat + (-n % (l.length : Int)).toNat := by
        rw [← Int.natCast_dvd_natCast]
        push_cast
        rw [Int.toNat_of_nonneg (Int.emod_nonneg _ (by omega)), Int.toNat_of_nonneg (Int.emod_nonneg _ (by omega))]
        rw [Int.dvd_iff_emod_eq_zero, ← Int.add_emod]
        simp
      obtain ⟨k, hk⟩ := hk
      rw [hk, List.rotate_length_mul]
  | shuffle => exact refill l hl'
  | filter f => exact refill l hl'
  | rep n => exact refill l hl'
  | extend n =>
    obtain ⟨rfl, -⟩ := e
    refine one hl' ⟨by decide, inInt hl⟩ trivial (fun h => h) (fun x r e => ?_)
    rw [e.2, if_neg (by omega)]
    have h1 := lo_nat (a := 0) (b := l.length) (n := (l ++ List.replicate n.toNat default).length) (by omega) (by simp)
    have h2 := hi_nat (a := 0) (b := l.length) (n := (l ++ List.replicate n.toNat default).length) (by omega) (by simp)
    rw [Nat.cast_zero] at h1 h2
    rw [h1, h2]
    simp
  | clear =>
    obtain ⟨rfl, -⟩ := e
    refine one (by simp) (show InInt64 0 by decide) trivial (fun h => h) (fun x r e => ?_)
    rw [e.1]; simp
  | copy => obtain ⟨rfl, -⟩ := e; exact .nil _
  | split ns => obtain ⟨rfl, -⟩ := e; exact .nil _
  | batch n => obtain ⟨rfl, -⟩ := e; exact .nil _
  | join f sep => obtain ⟨rfl, -⟩ := e; exact .nil _
  | indexOf f => obtain ⟨rfl, -⟩ := e; exact .nil _
  | contains f => obtain ⟨rfl, -⟩ := e; exact .nil _
  | each => obtain ⟨rfl, -⟩ := e; exact .nil _
  | forEach => obtain ⟨rfl, -⟩ := e; exact .nil _
  | len => obtain ⟨rfl, -⟩ := e; exact .nil _
  | finalize => obtain ⟨rfl, -⟩ := e; exact .nil _

end Verif.SliceUndo
