import Verif.Slicex.Model
import Verif.Slicex.Spec
/-!
# Lemmas about the slice methods
-/
namespace Verif.Slicex
open Verif.Go
variable {T : Type} [Inhabited T]

theorem clamp_eq (i : Int) (n : Nat) : clamp i n = (bound i n : Int) := by
  unfold clamp bound
  split <;> [skip; split] <;> omega

theorem clamp2_eq (i j : Int) (n : Nat) : clamp2 i j n = ((lo i j n : Int), (hi i j n : Int)) := by
  have h1 := clamp_eq i n
  have h2 : (if (if j > (n : Int) then (n : Int) else j) < 0 then 0 else (if j > (n : Int) then (n : Int) else j)) =
      (bound j n : Int) := by
    unfold bound
    split <;> split at * <;> omega
  simp only [clamp2, h1, h2, lo, hi]
  split <;> simp <;> omega

theorem bound_le (i : Int) (n : Nat) : bound i n ≤ n := by unfold bound; omega

theorem lo_le_hi (i j : Int) (n : Nat) : lo i j n ≤ hi i j n := by unfold lo hi; omega

theorem hi_le (i j : Int) (n : Nat) : hi i j n ≤ n := by
  have := bound_le i n; have := bound_le j n; unfold hi; omega

/-- The in-place write of the inner `append` of `Splice` (if any) does not touch the first `k`
elements of `s`. -/
def NoClash (s v : Sl) (k m : Nat) : Prop :=
  v.len + m ≤ v.cap → ∀ x, s.off ≤ x → x < s.off + k → ¬(s.arr = v.arr ∧ v.off + v.len ≤ x ∧ x < v.off + v.len + m)

/-- Everything `Splice` does: the elements of the result, and what it may write to. -/
theorem splice_spec (h : Hp T) (g1 g2 : Nat) {s v : Sl} (i j : Int) (o : s.Ok h)
    (hc : NoClash s v (lo i j s.len) (s.len - hi i j s.len)) :
    ∃ h' s', splice h g1 g2 s i j v = .ret (h', s') ∧ s'.Ok h' ∧ h.brk ≤ h'.brk ∧
      elems h' s' = spliceSpec (elems h s) i j (elems h v) ∧
      (∀ b k, b < h.brk → (b ≠ s.arr ∨ k < s.off + lo i j s.len ∨ s.off + s.cap ≤ k) →
        (b ≠ v.arr ∨ k < v.off + v.len ∨ v.off + v.cap ≤ k) → h'.mem b k = h.mem b k) ∧
      (∀ b k, b < h.brk → (b ≠ s.arr ∨ k < s.off + lo i j s.len ∨ s.off + s.cap ≤ k) →
        (s.len = hi i j s.len ∨ v.cap = v.len) → h'.mem b k = h.mem b k) := by
  have hlh := lo_le_hi i j s.len
  have hh := hi_le i j s.len
  have hle := o.le
  simp only [splice, clamp2_eq]
  generalize hLO : lo i j s.len = L at *
  generalize hHI : hi i j s.len = H at *
  rw [reslice_ret (by omega) (by omega) (by omega), reslice_ret (by omega) (by omega) (by omega)]
  simp only [Outcome.bind_ret, Int.toNat_zero, Nat.add_zero, Nat.sub_zero, Int.toNat_natCast, Int.sub_zero]
  rw [show ((s.len : Int) - (H : Int)).toNat = s.len - H by omega]
  have eb : elems h ⟨s.arr, s.off + H, s.len - H, s.cap - H⟩ = (elems h s).drop H := by
    rw [window_elems h s H s.len _ (Nat.le_refl _)]
    congr 1
    rw [List.take_of_length_le (by simp)]
  have ea : elems h ⟨s.arr, s.off, L, s.cap⟩ = (elems h s).take L := by
    have := window_elems h s 0 L s.cap (by omega)
    simpa using this
  rw [eb]
  have hout := fun b k hb hx => append_out h g1 v ((elems h s).drop H) b k hb hx
  have hbrk := append_brk h g1 v ((elems h s).drop H)
  have hel := append_elems h g1 v ((elems h s).drop H)
  have hin : v.len + (s.len - H) ≤ v.cap ∨ ∀ b k, b < h.brk → (append h g1 v ((elems h s).drop H)).1.mem b k = h.mem b k := by
    by_cases hx : v.len + (s.len - H) ≤ v.cap
    · exact Or.inl hx
    · right
      intro b k hb
      unfold append
      rw [if_neg (by simpa using hx)]
      exact alloc_out _ _ _ _ _ hb
  generalize append h g1 v ((elems h s).drop H) = p at *
  obtain ⟨h1, x⟩ := p
  simp only at hout hbrk hel hin ⊢
  have hpre : elems h1 ⟨s.arr, s.off, L, s.cap⟩ = (elems h s).take L := by
    rw [← ea]
    refine elems_congr (fun k hk => ?_)
    simp only at hk ⊢
    have hlt := o.lt (by omega)
    rcases hin with hin | hin
    · have hx := hc hin (s.off + k) (by omega) (by omega)
      refine hout _ _ hlt ?_
      simp only [List.length_drop, elems_length]
      by_cases e : s.arr = v.arr
      · simp only [e, true_and, not_and, not_lt] at hx
        omega
      · exact Or.inl e
    · exact hin _ _ hlt
  have ok1 : (⟨s.arr, s.off, L, s.cap⟩ : Sl).Ok h1 :=
    ⟨by simp only; omega, fun hc => Nat.lt_of_lt_of_le (o.lt hc) hbrk⟩
  refine ⟨(append h1 g2 ⟨s.arr, s.off, L, s.cap⟩ (elems h1 x)).1, (append h1 g2 ⟨s.arr, s.off, L, s.cap⟩ (elems h1 x)).2, rfl,
    append_ok h1 g2 _ ok1, Nat.le_trans hbrk (append_brk _ _ _ _), ?_, ?_, ?_⟩
  · rw [append_elems, hpre, hel, spliceSpec, elems_length, hLO, hHI, List.append_assoc]
  · intro b k hb h1' h2'
    rw [append_out h1 g2 _ _ b k (by omega) (by simp only; omega)]
    exact hout b k hb (by omega)
  · intro b k hb h1' h2'
    rw [append_out h1 g2 _ _ b k (by omega) (by simp only; omega)]
    refine hout b k hb ?_
    simp only [List.length_drop, elems_length]
    omega

/-- Without spare capacity behind the arguments nothing can clash. -/
theorem noClash_of_full {s v : Sl} (hv : v.cap = v.len) (k m : Nat) : NoClash s v k m := by
  intro h x _ _ hx
  omega

theorem noClash_of_arr {s v : Sl} (hv : s.arr ≠ v.arr) (k m : Nat) : NoClash s v k m := by
  intro h x _ _ hx
  exact hv hx.1

theorem spliceSpec_insert (l : List T) (i : Int) (v : List T) :
    spliceSpec l i i v = l.take (bound i l.length) ++ v ++ l.drop (bound i l.length) := by
  simp [spliceSpec, lo, hi]

/-- What `Insert` does; memory of other slices is only touched in the spare capacity of `s`. -/
theorem insert_spec (h : Hp T) (g1 g2 : Nat) {s : Sl} (i : Int) (v : T) (o : s.Ok h) :
    ∃ h' s', insert h g1 g2 s i v = .ret (h', s') ∧ s'.Ok h' ∧ h.brk ≤ h'.brk ∧
      elems h' s' = (elems h s).take (bound i s.len) ++ [v] ++ (elems h s).drop (bound i s.len) ∧
      (∀ b k, b < h.brk → (b ≠ s.arr ∨ k < s.off + bound i s.len ∨ s.off + s.cap ≤ k) → h'.mem b k = h.mem b k) := by
  have hbrk : (h.alloc [v] 0).1.brk = h.brk + 1 := rfl
  have o1 : s.Ok (h.alloc [v] 0).1 := o.mono (by omega)
  have hfull : (h.alloc [v] 0).2.cap = (h.alloc [v] 0).2.len := rfl
  obtain ⟨h', s', e, ok, hb, he, _, hf⟩ := splice_spec (h.alloc [v] 0).1 g1 g2 (v := (h.alloc [v] 0).2) i i o1
    (noClash_of_full hfull _ _)
  have es : elems (h.alloc [v] 0).1 s = elems h s :=
    elems_congr (fun k hk => alloc_out _ _ _ _ _ (o.lt (by have := o.le; omega)))
  refine ⟨h', s', e, ok, by omega, ?_, ?_⟩
  · rw [he, spliceSpec_insert, alloc_elems, es, elems_length]
  · intro b k hlt hx
    have hlo : lo i i s.len = bound i s.len := by simp [lo]
    rw [hf b k (by omega) (by rw [hlo]; exact hx) (Or.inr hfull), alloc_out _ _ _ _ _ hlt]

/-- What `Cut` does. -/
theorem cut_spec (h : Hp T) (g1 g2 : Nat) {s : Sl} (i j : Int) (o : s.Ok h) :
    ∃ h' s', cut h g1 g2 s i j = .ret (h', s') ∧ s'.Ok h' ∧ h.brk ≤ h'.brk ∧
      elems h' s' = (elems h s).take (lo i j s.len) ++ (elems h s).drop (hi i j s.len) ∧
      (∀ b k, b < h.brk → (b ≠ s.arr ∨ k < s.off + lo i j s.len ∨ s.off + s.cap ≤ k) → h'.mem b k = h.mem b k) := by
  obtain ⟨h', s', e, ok, hb, he, _, hf⟩ := splice_spec h g1 g2 (v := Sl.nil) i j o (noClash_of_full rfl _ _)
  refine ⟨h', s', e, ok, hb, ?_, fun b k hlt hx => hf b k hlt hx (Or.inr rfl)⟩
  rw [he, spliceSpec, elems_nil, List.append_nil, elems_length]

theorem cut_delete (l : List T) (i : Int) (h0 : InInt64 i) (h1 : i ≠ 2 ^ 63 - 1) :
    l.take (lo i (wrap64 (i + 1)) l.length) ++ l.drop (hi i (wrap64 (i + 1)) l.length) = deleteSpec l i := by
  rw [wrap64_of_in (by unfold InInt64 at *; omega)]
  unfold deleteSpec lo hi bound
  by_cases hn : 0 ≤ i
  · rw [if_pos hn, List.eraseIdx_eq_take_drop_succ]
    by_cases hlt : i < l.length
    · congr 2 <;> omega
    · rw [List.take_of_length_le (by omega), List.take_of_length_le (by omega), List.drop_of_length_le (by omega),
        List.drop_of_length_le (by omega)]
  · rw [if_neg hn]
    rw [show min (min (max i 0) (l.length : Int)).toNat (min (max (i + 1) 0) (l.length : Int)).toNat = 0 by omega,
      show max (min (max i 0) (l.length : Int)).toNat (min (max (i + 1) 0) (l.length : Int)).toNat = 0 by omega]
    simp

/-- What `Delete` does, but for the one index whose successor overflows. -/
theorem delete_spec (h : Hp T) (g1 g2 : Nat) {s : Sl} (i : Int) (o : s.Ok h) (h0 : InInt64 i) (h1 : i ≠ 2 ^ 63 - 1) :
    ∃ h' s', delete h g1 g2 s i = .ret (h', s') ∧ s'.Ok h' ∧ h.brk ≤ h'.brk ∧
      elems h' s' = deleteSpec (elems h s) i ∧
      (∀ b k, b < h.brk → (b ≠ s.arr ∨ k < s.off ∨ s.off + s.cap ≤ k) → h'.mem b k = h.mem b k) := by
  obtain ⟨h', s', e, ok, hb, he, hf⟩ := cut_spec h g1 g2 i (wrap64 (i + 1)) o
  refine ⟨h', s', e, ok, hb, ?_, fun b k hlt hx => hf b k hlt (by omega)⟩
  have := cut_delete (elems h s) i h0 h1
  rw [elems_length] at this
  rw [he, this]

/-- What a swap does. -/
theorem swap_spec (h : Hp T) {s : Sl} {i j : Nat} (hi : i < s.len) (hj : j < s.len) :
    ∃ h', swap h s i j = .ret h' ∧ h'.brk = h.brk ∧
      (∀ k, k < s.len → h'.mem s.arr (s.off + k) =
        h.mem s.arr (s.off + (if k = i then j else if k = j then i else k))) ∧
      (∀ b k, (b ≠ s.arr ∨ k < s.off ∨ s.off + s.len ≤ k) → h'.mem b k = h.mem b k) := by
  refine ⟨(h.blit s.arr (s.off + i) [h.mem s.arr (s.off + j)]).blit s.arr (s.off + j) [h.mem s.arr (s.off + i)], ?_, rfl, ?_, ?_⟩
  · simp only [swap, index, store]
    rw [if_pos (by omega), if_pos (by omega)]
    simp only [Outcome.bind_ret]
    rw [if_pos (by omega)]
    simp only [Outcome.bind_ret]
    rw [if_pos (by omega)]
    simp
  · intro k hk
    by_cases e2 : k = j
    · subst e2
      rw [blit_in _ _ _ _ _ (h.mem s.arr (s.off + i)) (Nat.le_refl _) (by simp)]
      by_cases e1 : k = i
      · subst e1; simp
      · simp [e1]
    · rw [blit_out _ _ _ _ _ _ (by simp; omega)]
      by_cases e1 : k = i
      · subst e1
        rw [blit_in _ _ _ _ _ (h.mem s.arr (s.off + j)) (Nat.le_refl _) (by simp)]
        simp
      · rw [blit_out _ _ _ _ _ _ (by simp; omega)]
        simp [e1, e2]
  · intro b k hbk
    rw [blit_out _ _ _ _ _ _ (by simp; omega), blit_out _ _ _ _ _ _ (by simp; omega)]

theorem reverseLoop_spec {s : Sl} : ∀ (k : Nat) (h : Hp T) (i : Nat) (j : Int), (j : Int) + i = s.len - 1 →
    j + 1 - i ≤ 2 * k → (i : Int) ≤ j + 1 → ∃ h', reverseLoop s (k + 1) h i j = .ret h' ∧ h'.brk = h.brk ∧
      (∀ m, m < s.len → h'.mem s.arr (s.off + m) =
        h.mem s.arr (s.off + (if i ≤ m ∧ (m : Int) ≤ j then s.len - 1 - m else m))) ∧
      (∀ b m, (b ≠ s.arr ∨ m < s.off ∨ s.off + s.len ≤ m) → h'.mem b m = h.mem b m) := by
  intro k
  induction k with
  | zero =>
    intro h i j hij hk hij2
    rw [reverseLoop, if_neg (by omega)]
    refine ⟨h, rfl, rfl, fun m hm => ?_, fun _ _ _ => rfl⟩
    rw [if_neg (by omega)]
  | succ k ih =>
    intro h i j hij hk hij2
    rw [reverseLoop]
    by_cases hlt : (i : Int) < j
    · rw [if_pos hlt]
      obtain ⟨j', rfl⟩ : ∃ j' : Nat, j = j' := ⟨j.toNat, by omega⟩
      obtain ⟨h1, e1, b1, m1, f1⟩ := swap_spec h (s := s) (i := i) (j := j') (by omega) (by omega)
      rw [e1, Outcome.bind_ret]
      obtain ⟨h2, e2, b2, m2, f2⟩ := ih h1 (i + 1) (j' - 1) (by omega) (by omega) (by omega)
      refine ⟨h2, by exact_mod_cast e2, by omega, ?_, ?_⟩
      · intro m hm
        rw [m2 m hm]
        by_cases c1 : i + 1 ≤ m ∧ (m : Int) ≤ j' - 1
        · rw [if_pos c1, if_pos (by omega), m1 _ (by omega), if_neg (by omega), if_neg (by omega)]
        · rw [if_neg c1, m1 m hm]
          congr 2
          by_cases c2 : m = i
          · rw [if_pos c2, if_pos (by omega)]; omega
          · rw [if_neg c2]
            by_cases c3 : m = j'
            · rw [if_pos c3, if_pos (by omega)]; omega
            · rw [if_neg c3, if_neg (by omega)]
      · intro b m hbm
        rw [f2 b m hbm, f1 b m hbm]
    · rw [if_neg hlt]
      refine ⟨h, rfl, rfl, fun m hm => ?_, fun _ _ _ => rfl⟩
      congr 2
      split
      · omega
      · rfl

theorem shuffleLoop_spec {s : Sl} (draw : Nat → Nat) : ∀ (n : Nat) (h : Hp T), n ≤ s.len →
    ∃ h', shuffleLoop s draw n h = .ret h' ∧ h'.brk = h.brk ∧ (elems h' s).Perm (elems h s) ∧
      (∀ b m, (b ≠ s.arr ∨ m < s.off ∨ s.off + s.len ≤ m) → h'.mem b m = h.mem b m) := by
  intro n
  induction n with
  | zero => intro h _; exact ⟨h, rfl, rfl, List.Perm.refl _, fun _ _ _ => rfl⟩
  | succ i ih =>
    intro h hn
    rw [shuffleLoop]
    split
    · exact ⟨h, rfl, rfl, List.Perm.refl _, fun _ _ _ => rfl⟩
    · have hj : draw i % (i + 1) < i + 1 := Nat.mod_lt _ (by omega)
      obtain ⟨h1, e1, b1, m1, f1⟩ := swap_spec h (s := s) (i := i) (j := draw i % (i + 1)) (by omega) (by omega)
      rw [e1, Outcome.bind_ret]
      obtain ⟨h2, e2, b2, m2, f2⟩ := ih h1 (by omega)
      refine ⟨h2, e2, by omega, m2.trans ?_, fun b m hbm => by rw [f2 b m hbm, f1 b m hbm]⟩
      generalize draw i % (i + 1) = j at *
      have hil : i < (elems h s).length := by simp; omega
      have hjl : j < (elems h s).length := by simp; omega
      have : elems h1 s = ((elems h s).set i (elems h s)[j]).set j (elems h s)[i] := by
        refine elems_ext (by simp) (fun k hk => ?_)
        rw [m1 k hk]
        have g : ∀ q (hq : q < s.len), (elems h s)[q]'(by simpa using hq) = h.mem s.arr (s.off + q) := by
          intro q hq
          have := elems_getElem? h s q
          rw [if_pos hq, List.getElem?_eq_getElem (by simpa using hq)] at this
          exact Option.some.inj this
        rw [List.getElem?_set, List.getElem?_set]
        by_cases c1 : j = k
        · rw [if_pos c1, if_pos (by simp; omega), g i (by omega)]
          by_cases c2 : k = i
          · rw [if_pos c2]; congr 3; omega
          · rw [if_neg c2, if_pos c1.symm]
        · rw [if_neg c1]
          by_cases c2 : i = k
          · rw [if_pos c2, if_pos (by omega), if_pos c2.symm, g j (by omega)]
          · rw [if_neg c2, if_neg (Ne.symm c2), if_neg (Ne.symm c1), elems_getElem?, if_pos hk]
      rw [this]
      exact List.set_set_perm hil hjl

theorem filterLoop_spec {f : T → Bool} {s : Sl} : ∀ (r k n : Nat) (h : Hp T), k + r = s.len → n ≤ k →
    ∃ h' n', filterLoop f s r k n h = .ret (h', n') ∧ h'.brk = h.brk ∧ n' ≤ s.len ∧
      (elems h' s).take n' = (elems h s).take n ++ ((elems h s).drop k).filter f ∧
      (∀ b m, (b ≠ s.arr ∨ m < s.off ∨ s.off + s.len ≤ m) → h'.mem b m = h.mem b m) := by
  intro r
  induction r with
  | zero =>
    intro k n h hk hn
    refine ⟨h, n, rfl, rfl, by omega, ?_, fun _ _ _ => rfl⟩
    rw [List.drop_of_length_le (by simp; omega)]
    simp
  | succ r ih =>
    intro k n h hk hn
    rw [filterLoop]
    have hkl : k < (elems h s).length := by simp; omega
    have hv : (elems h s)[k] = h.mem s.arr (s.off + k) := by
      have := elems_getElem? h s k
      rw [if_pos (by omega), List.getElem?_eq_getElem hkl] at this
      exact Option.some.inj this
    have hdrop : (elems h s).drop k = h.mem s.arr (s.off + k) :: (elems h s).drop (k + 1) := by
      rw [← hv, List.cons_getElem_drop_succ]
    rw [hdrop]
    by_cases hf : f (h.mem s.arr (s.off + k)) = true
    · rw [if_pos hf]
      obtain ⟨h1, e1, b1, el1, o1⟩ := store_ret h (s := s) (i := (n : Int)) (h.mem s.arr (s.off + k)) (by omega) (by omega)
      rw [e1, Outcome.bind_ret]
      obtain ⟨h2, n', e2, b2, l2, el2, o2⟩ := ih (k + 1) (n + 1) h1 (by omega) (by omega)
      refine ⟨h2, n', e2, by omega, l2, ?_, ?_⟩
      · rw [el2, el1, List.filter_cons_of_pos hf]
        simp only [Int.toNat_natCast]
        have hn' : n < (elems h s).length := by simp; omega
        rw [List.drop_set_of_lt (by omega), List.take_succ_eq_append_getElem (by simpa using hn')]
        simp [List.take_set_of_le]
      · intro b m hbm
        rw [o2 b m hbm, o1 b m (by simp only [Int.toNat_natCast]; omega)]
    · rw [if_neg hf]
      obtain ⟨h2, n', e2, b2, l2, el2, o2⟩ := ih (k + 1) n h (by omega) (by omega)
      refine ⟨h2, n', e2, b2, l2, ?_, o2⟩
      rw [el2, List.filter_cons_of_neg hf]

theorem repeatLoop_spec (vs : List T) (gs : Nat → Nat) : ∀ (k : Nat) (h : Hp T) (r : Sl), r.Ok h →
    elems (repeatLoop vs gs k h r).1 (repeatLoop vs gs k h r).2 = elems h r ++ timesSpec vs k ∧
      (repeatLoop vs gs k h r).2.Ok (repeatLoop vs gs k h r).1 := by
  intro k
  induction k with
  | zero => intro h r o; simp [repeatLoop, timesSpec, o]
  | succ k ih =>
    intro h r o
    simp only [repeatLoop, timesSpec]
    obtain ⟨h1, h2⟩ := ih (append h (gs k) r vs).1 (append h (gs k) r vs).2 (append_ok _ _ _ o)
    refine ⟨?_, h2⟩
    rw [h1, append_elems, List.append_assoc]

omit [Inhabited T] in
theorem pieces_flatten (l : List T) (ns : List Nat) : (pieces l ns).flatten = l := by
  induction ns generalizing l with
  | nil => cases l <;> simp [pieces]
  | cons n ns ih => simp [pieces, ih]

theorem sum_nonneg' {ns : List Int} (hn : ∀ n ∈ ns, 0 ≤ n) : 0 ≤ ns.sum := by
  induction ns with
  | nil => simp
  | cons n ns ih =>
    have h1 := hn n (by simp)
    have h2 := ih (fun m hm => hn m (by simp [hm]))
    rw [List.sum_cons]; omega

theorem splitLoop_spec (h : Hp T) {s : Sl} (o : s.Ok h) (ns : List Int) :
    ∀ (e : Nat) (r : List Sl), e ≤ s.len → (∀ n ∈ ns, 0 ≤ n) →
    (∀ n ∈ ns, n + s.len < 2 ^ 63) ∨ e + ns.sum < 2 ^ 63 →
    ∃ (r' : List Sl) (e' : Nat), splitLoop s ns e r = .ret (r', (e' : Int)) ∧ e' ≤ s.len ∧
      r'.map (elems h) ++ pieces ((elems h s).drop e') [] = r.map (elems h) ++ pieces ((elems h s).drop e) (ns.map Int.toNat) := by
  induction ns with
  | nil => intro e r he _ _; exact ⟨r, e, rfl, he, rfl⟩
  | cons n ns ih =>
    intro e r he hn hs
    have h0 := hn n (by simp)
    have hpos : 0 ≤ ns.sum := sum_nonneg' (fun m hm => hn m (by simp [hm]))
    rw [List.sum_cons] at hs
    have h1 : (e : Int) + n < 2 ^ 63 := by
      rcases hs with hs | hs
      · have := hs n (by simp); omega
      · omega
    have hle := o.le
    simp only [splitLoop]
    have hw : wrap64 ((e : Int) + n) = e + n := wrap64_of_in (by unfold InInt64; omega)
    rw [hw, clamp_eq]
    have hb : bound ((e : Int) + n) s.len = min (e + n.toNat) s.len := by unfold bound; omega
    rw [hb]
    generalize hE : min (e + n.toNat) s.len = E
    rw [if_neg (by omega), reslice_ret (by omega) (by omega) (by omega), Outcome.bind_ret]
    obtain ⟨r', e', h2, h3, h4⟩ := ih E (r ++ [⟨s.arr, s.off + (e : Int).toNat, ((E : Int) - e).toNat, s.cap - (e : Int).toNat⟩])
      (by omega) (fun m hm => hn m (by simp [hm]))
      (hs.imp (fun hs m hm => hs m (by simp [hm])) (fun hs => by omega))
    refine ⟨r', e', h2, h3, ?_⟩
    rw [h4]
    have ew := window_elems h s e E (s.cap - e) (by omega)
    simp only [List.map_append, List.map_cons, List.map_nil, pieces, Int.toNat_natCast, List.append_assoc]
    rw [show ((E : Int) - (e : Int)).toNat = E - e by omega, ew]
    congr 1
    simp only [List.cons_append, List.nil_append]
    congr 1
    · rw [List.drop_take]
      by_cases hx : e + n.toNat ≤ s.len
      · congr 1; omega
      · rw [List.take_of_length_le (by simp; omega), List.take_of_length_le (by simp; omega)]
    · congr 1
      rw [List.drop_drop]
      by_cases hx : e + n.toNat ≤ s.len
      · congr 1; omega
      · rw [List.drop_of_length_le (by simp; omega), List.drop_of_length_le (by simp; omega)]

theorem split_spec (h : Hp T) {s : Sl} (o : s.Ok h) (ns : List Int) (hn : ∀ n ∈ ns, 0 ≤ n)
    (hs : (∀ n ∈ ns, n + s.len < 2 ^ 63) ∨ ns.sum < 2 ^ 63) :
    ∃ r, split s ns = .ret r ∧ r.map (elems h) = pieces (elems h s) (ns.map Int.toNat) := by
  obtain ⟨r, e, h1, h2, h3⟩ := splitLoop_spec h o ns 0 [] (by omega) hn (by simpa using hs)
  have hle := o.le
  simp only [Nat.cast_zero] at h1
  simp only [split, h1, Outcome.bind_ret]
  simp only [List.map_nil, List.nil_append, List.drop_zero] at h3
  by_cases he : (e : Int) < s.len
  · rw [if_pos he, reslice_ret (by omega) (by omega) (by omega), Outcome.bind_ret]
    refine ⟨_, rfl, ?_⟩
    rw [← h3]
    have ew := window_elems h s e s.len (s.cap - e) (by omega)
    rw [List.take_of_length_le (by simp)] at ew
    simp only [List.map_append, List.map_cons, List.map_nil, pieces, Int.toNat_natCast]
    rw [show ((s.len : Int) - (e : Int)).toNat = s.len - e by omega, ew]
    rw [if_neg]
    simp
    omega
  · rw [if_neg he]
    refine ⟨_, rfl, ?_⟩
    rw [← h3, List.drop_of_length_le (by simp; omega)]
    simp [pieces]

omit [Inhabited T] in
/-- The pieces of equal size `n`, as many as fit, and the remainder. -/
theorem pieces_replicate {n : Nat} (hn : 0 < n) : ∀ (k : Nat) (l : List T), l.length / n = k →
    (∀ p ∈ pieces l (List.replicate k n), 0 < p.length ∧ p.length ≤ n) ∧
    (∀ p ∈ (pieces l (List.replicate k n)).dropLast, p.length = n) := by
  intro k
  induction k with
  | zero =>
    intro l hl
    rw [Nat.div_eq_zero_iff] at hl
    cases l with
    | nil => simp [pieces]
    | cons x l => simp only [pieces, List.replicate_zero, List.isEmpty_cons]; simp at hl ⊢; omega
  | succ k ih =>
    intro l hl
    have hge : n ≤ l.length := by
      by_contra hc
      rw [Nat.div_eq_of_lt (by omega)] at hl
      omega
    have hd : (l.drop n).length / n = k := by
      have := Nat.div_eq_sub_div hn hge
      rw [List.length_drop]; omega
    obtain ⟨h1, h2⟩ := ih (l.drop n) hd
    simp only [List.replicate_succ, pieces]
    constructor
    · intro p hp
      rcases List.mem_cons.1 hp with e | hp
      · subst e; simp; omega
      · exact h1 p hp
    · intro p hp
      cases hq : pieces (l.drop n) (List.replicate k n) with
      | nil => simp [hq] at hp
      | cons y ys =>
        rw [hq, List.dropLast_cons_of_ne_nil (by simp)] at hp
        rcases List.mem_cons.1 hp with e | hp
        · subst e; simp; omega
        · exact h2 p (by rw [hq]; exact hp)

theorem joinLoop_spec (fmt : T → String) (sep : String) : ∀ (l : List T) (i : Nat) (r : String),
    joinLoop fmt sep l (i + 1) r = r ++ String.join (l.map fun v => sep ++ fmt v) := by
  intro l
  induction l with
  | nil => intro i r; simp [joinLoop, String.join]
  | cons v l ih =>
    intro i r
    simp only [joinLoop, ih, ne_eq, Nat.add_eq_zero_iff, one_ne_zero, and_false, not_false_eq_true, if_true, List.map_cons]
    simp [String.append_assoc]

theorem sepBy_cons (sep x : String) (l : List String) : sepBy sep (x :: l) = x ++ String.join (l.map fun v => sep ++ v) := by
  induction l generalizing x with
  | nil => simp [sepBy, String.join]
  | cons y l ih => simp [sepBy, ih, String.append_assoc]

theorem indexLoop_spec (f : T → Bool) : ∀ (l : List T) (i : Int), 0 ≤ i →
    (indexLoop f l i).1 = (match l.findIdx? f with | some k => i + k | none => -1) ∧
    (indexLoop f l i).2 = (match l.findIdx? f with | some k => l.take (k + 1) | none => l) := by
  intro l
  induction l with
  | nil => intro i _; simp [indexLoop]
  | cons v l ih =>
    intro i hi
    rw [List.findIdx?_cons, indexLoop]
    by_cases hf : f v = true
    · simp [hf]
    · have hf' : f v = false := by simpa using hf
      obtain ⟨h1, h2⟩ := ih (i + 1) (by omega)
      simp only [hf', Bool.false_eq_true, if_false, h1, h2]
      cases l.findIdx? f with
      | none => simp
      | some k => simp; ring

theorem containsLoop_spec (f : T → Bool) : ∀ l : List T,
    (containsLoop f l).1 = l.any f ∧
    (containsLoop f l).2 = (match l.findIdx? f with | some k => l.take (k + 1) | none => l) := by
  intro l
  induction l with
  | nil => simp [containsLoop]
  | cons v l ih =>
    rw [List.findIdx?_cons, containsLoop]
    by_cases hf : f v = true
    · simp [hf]
    · have hf' : f v = false := by simpa using hf
      simp only [hf', Bool.false_eq_true, if_false, ih.1, ih.2, List.any_cons, Bool.false_or]
      cases l.findIdx? f with
      | none => simp
      | some k => simp

end Verif.Slicex
