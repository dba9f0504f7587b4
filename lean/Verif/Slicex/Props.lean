import Verif.Slicex.Hist
/-!
# Properties C20 - C31: `dsx/slicex`

`s.Ok h` says that the slice is one a program can hold; lengths are below `2^63` because Go's `len`
is an `int`.
-/
namespace Verif.Slicex
open Verif.Go
variable {T : Type} [Inhabited T]

/-- A memory for the examples: array 0 is `1,2,3,4,5`, array 1 is `8,9`. -/
def mem0 : Hp Nat := ⟨fun a i => if a = 0 then i + 1 else i + 8, 2⟩

/-- The first three elements of array 0, with room for two more. -/
def sl0 : Sl := ⟨0, 0, 3, 5⟩

theorem sl0_ok : sl0.Ok mem0 := ⟨by decide, fun _ => by decide⟩

/-! ## C20 -/

/-- **C20.** `Get` and `Set` act on position `min (max i 0) (len-1)` and nothing else; on an empty
slice `Get` gives the zero value and `Set` does nothing. -/
theorem C20_get_set (h : Hp T) (s : Sl) (i : Int) (v : T) :
    (0 < s.len → get h s i = .ret (h.mem s.arr (s.off + (min (max i 0) (s.len - 1)).toNat)) ∧
      ∃ h', set h s i v = .ret h' ∧ h'.brk = h.brk ∧
        elems h' s = (elems h s).set (min (max i 0) (s.len - 1)).toNat v ∧
        ∀ b k, (b ≠ s.arr ∨ k ≠ s.off + (min (max i 0) (s.len - 1)).toNat) → h'.mem b k = h.mem b k) ∧
    (s.len = 0 → get h s i = .ret default ∧ set h s i v = .ret h) := by
  constructor
  · intro hp
    have hc : clamp i ((s.len : Int) - 1) = min (max i 0) (s.len - 1) := by
      unfold clamp; split <;> [skip; split] <;> omega
    have h0 : s.len ≠ 0 := by omega
    simp only [get, set, if_neg h0, hc]
    refine ⟨if_pos (by omega), store_ret h v (by omega) (by omega)⟩
  · intro h0
    simp [get, set, h0]

example : get mem0 sl0 (-7) = .ret 1 ∧ get mem0 sl0 99 = .ret 3 := by
  have := fun i => ((C20_get_set mem0 sl0 i 0).1 (by decide)).1
  exact ⟨this (-7), this 99⟩

/-! ## C21 -/

/-- **C21 is false of the code**: when the argument slice has spare capacity that overlaps the
receiver, the inner `append` overwrites the kept prefix (receiver `2,3`, argument `1` in front of it
in the same array, inserted at 1: `2,1,3` expected, `3,1,3` got); and `Delete` of the largest `int`
removes everything, not nothing. -/
theorem C21_refuted :
    (∃ h' s', splice mem0 0 0 ⟨0, 1, 2, 4⟩ 1 1 ⟨0, 0, 1, 5⟩ = .ret (h', s') ∧ elems h' s' = [3, 1, 3] ∧
      spliceSpec (elems mem0 ⟨0, 1, 2, 4⟩) 1 1 (elems mem0 ⟨0, 0, 1, 5⟩) = [2, 1, 3]) ∧
    (∀ (h : Hp T) (g1 g2 : Nat) (s : Sl), s.Ok h → ∃ h' s', delete h g1 g2 s (2 ^ 63 - 1) = .ret (h', s') ∧
      ((s.len : Int) < 2 ^ 63 → elems h' s' = [] ∧ deleteSpec (elems h s) (2 ^ 63 - 1) = elems h s)) := by
  constructor
  · exact ⟨_, _, rfl, by decide, by decide⟩
  · intro h g1 g2 s o
    obtain ⟨h', s', e, _, _, he, _⟩ := cut_spec h g1 g2 (2 ^ 63 - 1) (wrap64 (2 ^ 63 - 1 + 1)) o
    refine ⟨h', s', e, fun hs => ⟨?_, ?_⟩⟩
    · have hw : wrap64 (2 ^ 63 - 1 + 1) = -2 ^ 63 := by decide
      rw [hw] at he
      rw [he]
      have h1 : lo (2 ^ 63 - 1) (-2 ^ 63) s.len = 0 := by unfold lo bound; omega
      have h2 : hi (2 ^ 63 - 1) (-2 ^ 63) s.len = s.len := by unfold hi bound; omega
      rw [h1, h2, List.drop_of_length_le (by simp)]
      simp
    · rw [deleteSpec, if_pos (by decide), List.eraseIdx_of_length_le (by simp; omega)]

/-- **C21, what does hold**: `Splice` and `Expand` replace exactly the clamped window whenever the
in-place write of the inner `append` stays off the kept prefix - in particular always when the
arguments are given one by one (a slice without spare capacity) or lie in another array. Missing
from the full claim: argument slices whose spare capacity covers the receiver's prefix. -/
theorem C21_partial (h : Hp T) (g1 g2 : Nat) (s v : Sl) (i j : Int) (o : s.Ok h)
    (hc : NoClash s v (lo i j s.len) (s.len - hi i j s.len)) :
    ∃ h' s', splice h g1 g2 s i j v = .ret (h', s') ∧ s'.Ok h' ∧
      elems h' s' = spliceSpec (elems h s) i j (elems h v) := by
  obtain ⟨h', s', e, ok, _, he, _⟩ := splice_spec h g1 g2 i j o hc
  exact ⟨h', s', e, ok, he⟩

/-- The hypothesis of `C21_partial` in the two common cases, and in the case of arguments behind the
receiver's kept prefix. -/
theorem C21_noClash (s v : Sl) (k m : Nat)
    (h : v.cap = v.len ∨ s.arr ≠ v.arr ∨ s.off + k ≤ v.off + v.len) : NoClash s v k m := by
  rcases h with h | h | h
  · exact noClash_of_full h k m
  · exact noClash_of_arr h k m
  · intro _ x _ h2 hx; omega

example : ∃ h' s', splice mem0 0 0 sl0 7 1 ⟨1, 0, 2, 2⟩ = .ret (h', s') ∧ elems h' s' = [1, 8, 9] := by
  obtain ⟨h', s', e, _, he⟩ := C21_partial mem0 0 0 sl0 ⟨1, 0, 2, 2⟩ 7 1 sl0_ok (C21_noClash _ _ _ _ (by decide))
  exact ⟨h', s', e, he.trans (by decide)⟩

/-- **C21 for the methods that choose their own arguments**: `Expand`, `Insert`, `Cut`, `Delete`
(but for the largest `int`) have their list meaning, whatever the spare capacity and the sharing. -/
theorem C21_insert_cut_delete (h : Hp T) (g1 g2 : Nat) (s : Sl) (i j : Int) (v : T) (o : s.Ok h) :
    (∃ h' s', insert h g1 g2 s i v = .ret (h', s') ∧ s'.Ok h' ∧
      elems h' s' = (elems h s).take (bound i s.len) ++ [v] ++ (elems h s).drop (bound i s.len)) ∧
    (∃ h' s', cut h g1 g2 s i j = .ret (h', s') ∧ s'.Ok h' ∧
      elems h' s' = (elems h s).take (lo i j s.len) ++ (elems h s).drop (hi i j s.len)) ∧
    (InInt64 i → i ≠ 2 ^ 63 - 1 → ∃ h' s', delete h g1 g2 s i = .ret (h', s') ∧ s'.Ok h' ∧
      elems h' s' = deleteSpec (elems h s) i) := by
  refine ⟨?_, ?_, fun h0 h1 => ?_⟩
  · obtain ⟨h', s', e, ok, _, he, _⟩ := insert_spec h g1 g2 i v o
    exact ⟨h', s', e, ok, he⟩
  · obtain ⟨h', s', e, ok, _, he, _⟩ := cut_spec h g1 g2 i j o
    exact ⟨h', s', e, ok, he⟩
  · obtain ⟨h', s', e, ok, _, he, _⟩ := delete_spec h g1 g2 i o h0 h1
    exact ⟨h', s', e, ok, he⟩

/-! ## C22 -/

/-- **C22.** Every history of `Push`, `Pop`, `UnShift` and `Shift`, starting from any slice, returns
what a double-ended sequence returns and leaves what it leaves. -/
theorem C22_deque (h : Hp T) (s : Sl) (o : s.Ok h) (ops : List (DOp T)) (hs : (s.len : Int) + ops.length < 2 ^ 63) :
    (drun (h, s) ops).2 = (dspecRun (elems h s) ops).2 ∧
    elems (drun (h, s) ops).1.1 (drun (h, s) ops).1.2 = (dspecRun (elems h s) ops).1 := by
  rw [drun_spec ops o hs]
  exact ⟨rfl, rfl⟩

example : dspecRun [] [.push 1 0 0, .push 2 0 3, .unShift 3 0 0, .pop 0 0, .shift 0 0, .shift 1 1, .pop 0 0] =
    ([], [.done, .done, .done, .val 2, .val 3, .val 1, .val (0 : Nat)]) := by decide

/-! ## C23 -/

/-- **C23.** The copy has the elements of the original, the original keeps its own, and after any
mixture of stores, appends and reslicings through the two, each shows exactly what it would show had
only the operations through itself happened. -/
theorem C23_copy_independent (h : Hp T) (g : Nat) (s : Sl) (o : s.Ok h) (ws : List (Bool × W T)) :
    let c := copy h g s
    let r := wrun2 c.1 s c.2 ws
    elems c.1 c.2 = elems h s ∧ elems c.1 s = elems h s ∧
    elems r.1 r.2.1 = elems (wrun h s (side true ws)).1 (wrun h s (side true ws)).2 ∧
    elems r.1 r.2.2 = elems (wrun c.1 c.2 (side false ws)).1 (wrun c.1 c.2 (side false ws)).2 := by
  obtain ⟨h1, h2, h3, h4, h5⟩ := copy_spec h g o
  have hm : ∀ k, k < s.cap → (copy h g s).1.mem s.arr (s.off + k) = h.mem s.arr (s.off + k) :=
    fun k hk => h5 _ _ (o.lt (by omega))
  have := wrun2_same ws h3 h2 h4 (⟨rfl, rfl, rfl, hm⟩ : Same (copy h g s).1 s h s)
    (⟨rfl, rfl, rfl, fun _ _ => rfl⟩ : Same (copy h g s).1 (copy h g s).2 (copy h g s).1 (copy h g s).2)
  exact ⟨h1, elems_congr fun k hk => hm k (by have := o.le; omega), this⟩

example : (let c := copy mem0 0 sl0
    let r := wrun2 c.1 sl0 c.2 [(true, .store 0 77), (false, .app 0 [6]), (true, .app 0 [5]), (false, .store 1 0)]
    (elems r.1 r.2.1, elems r.1 r.2.2)) = ([77, 2, 3, 5], [1, 0, 3, 6]) := by decide

/-! ## C24 -/

/-- **C24 is false of the code** for the smallest `int`: `Rotate` negates it, which overflows, and
panics unless the length divides `2^63`. -/
theorem C24_refuted (h : Hp T) (g : Nat) (s : Sl) (hd : ¬ (s.len : Int) ∣ 2 ^ 63) (hs : s.len ≠ 0) :
    rotate h g s (-2 ^ 63) = .panic := by
  have hw : wrap64 (- -2 ^ 63) = -2 ^ 63 := by decide
  simp only [rotate]
  rw [if_neg hs, if_neg (by decide), if_pos (by decide), hw]
  have hm : (-2 ^ 63 : Int).tmod s.len < 0 := by
    rw [Int.neg_tmod]
    have h0 : (0 : Int) ≤ ((2 : Int) ^ 63).tmod s.len := Int.tmod_nonneg _ (by decide)
    have h1 : ((2 : Int) ^ 63).tmod s.len ≠ 0 := fun e => hd (Int.dvd_of_tmod_eq_zero e)
    omega
  rw [reslice, if_neg (by omega)]
  rfl

example : ¬ (((sl0.len : Nat) : Int) ∣ 2 ^ 63) := by decide

theorem rotate_list {l l' : List T} {n k : Nat} (hk : k ≤ l.length) (hl : l' = l.drop k ++ l.take k)
    (h : n < l.length) : l'[n]? = l[((n + k) % l.length)]? := by
  subst hl
  by_cases h1 : n < l.length - k
  · rw [List.getElem?_append_left (by simp; omega), List.getElem?_drop, Nat.mod_eq_of_lt (by omega), Nat.add_comm]
  · rw [List.getElem?_append_right (by simp; omega), List.length_drop, List.getElem?_take, if_pos (by omega),
      Nat.mod_eq_sub_mod (by omega), Nat.mod_eq_of_lt (by omega)]
    congr 1; omega

/-- **C24, `Reverse`**: element `i` ends at position `len-1-i`; nothing else changes. -/
theorem C24_reverse (h : Hp T) (s : Sl) : ∃ h', reverse h s = .ret h' ∧ h'.brk = h.brk ∧
    elems h' s = (elems h s).reverse ∧
    ∀ b k, (b ≠ s.arr ∨ k < s.off ∨ s.off + s.len ≤ k) → h'.mem b k = h.mem b k := by
  obtain ⟨h', e, hb, hm, hf⟩ := reverseLoop_spec (s := s) s.len h 0 ((s.len : Int) - 1) (by omega) (by omega) (by omega)
  refine ⟨h', by simpa [reverse] using e, hb, ?_, hf⟩
  refine elems_ext (by simp) (fun k hk => ?_)
  rw [hm k hk, if_pos (by omega), List.getElem?_reverse (by simpa using hk), elems_getElem?, elems_length,
    if_pos (by omega)]

/-- **C24, `Rotate`, what does hold**: for every `int` but the smallest one, and for that too if the
length divides `2^63`, position `i` afterwards holds what position `(i + n) mod len` held. Missing
from the full claim: the smallest `int` with other lengths, where it is false (`C24_refuted`). -/
theorem C24_rotate_partial (h : Hp T) (g : Nat) (s : Sl) (n : Int) (o : s.Ok h) (hn : InInt64 n)
    (hx : n ≠ -2 ^ 63 ∨ (s.len : Int) ∣ 2 ^ 63) :
    ∃ h' s', rotate h g s n = .ret (h', s') ∧ s'.Ok h' ∧ s'.len = s.len ∧
      ∀ k, k < s.len → (elems h' s')[k]? = (elems h s)[((k + n) % (s.len : Int)).toNat]? := by
  have hle := o.le
  by_cases h0 : s.len = 0
  · exact ⟨h, s, by simp [rotate, h0], o, rfl, fun k hk => absurd hk (by omega)⟩
  -- the common tail: both branches append `s[:x]` to `s[x:]`
  have key : ∀ x : Nat, x ≤ s.len → (∀ k : Nat, ((k : Int) + n) % (s.len : Int) = ((k : Int) + x) % (s.len : Int)) →
      ∃ h' s', ((reslice s x s.len).bind fun a => (reslice s 0 x).bind fun b => Outcome.ret (append h g a (elems h b))) =
        .ret (h', s') ∧ s'.Ok h' ∧ s'.len = s.len ∧
        ∀ k, k < s.len → (elems h' s')[k]? = (elems h s)[((k + n) % (s.len : Int)).toNat]? := by
    intro x hxl hmod
    rw [reslice_ret (by omega) (by omega) (by omega), reslice_ret (by omega) (by omega) (by omega)]
    simp only [Outcome.bind_ret, Int.toNat_zero, Nat.add_zero, Nat.sub_zero, Int.toNat_natCast, Int.sub_zero]
    rw [show ((s.len : Int) - (x : Int)).toNat = s.len - x by omega]
    have ok : (⟨s.arr, s.off + x, s.len - x, s.cap - x⟩ : Sl).Ok h := 
      ⟨by simp only; omega, fun hc => o.lt (by simp only at hc; omega)⟩
    have ea := window_elems h s x s.len (s.cap - x) (Nat.le_refl _)
    rw [List.take_of_length_le (by simp)] at ea
    have eb : elems h ⟨s.arr, s.off, x, s.cap⟩ = (elems h s).take x := by
      simpa using window_elems h s 0 x s.cap hxl
    have hel := append_elems h g ⟨s.arr, s.off + x, s.len - x, s.cap - x⟩ (elems h ⟨s.arr, s.off, x, s.cap⟩)
    have hok := append_ok h g (elems h ⟨s.arr, s.off, x, s.cap⟩) ok
    generalize append h g ⟨s.arr, s.off + x, s.len - x, s.cap - x⟩ (elems h ⟨s.arr, s.off, x, s.cap⟩) = p at *
    obtain ⟨h', s'⟩ := p
    simp only at hel hok
    rw [ea, eb] at hel
    refine ⟨h', s', rfl, hok, ?_, fun k hk => ?_⟩
    · have := congrArg List.length hel
      simp at this; omega
    · rw [rotate_list (by simpa using hxl) hel (by simpa using hk), hmod, elems_length]
      congr 1
  simp only [rotate]
  rw [if_neg h0]
  by_cases hp : n > 0
  · rw [if_pos hp]
    have hm0 : 0 ≤ n.tmod s.len := Int.tmod_nonneg _ (by omega)
    have hm1 : n.tmod s.len < s.len := Int.tmod_lt_of_pos _ (by omega)
    have hem : n.tmod s.len = n % s.len := Int.tmod_eq_emod_of_nonneg (by omega)
    obtain ⟨x, hx⟩ : ∃ x : Nat, n.tmod s.len = x := ⟨(n.tmod s.len).toNat, by omega⟩
    rw [hx]
    refine key x (by omega) (fun k => ?_)
    rw [← hx, hem, Int.add_emod_emod]
  · rw [if_neg hp]
    by_cases hneg : n < 0
    · rw [if_pos hneg]
      by_cases hmin : n = -2 ^ 63
      · have hdv : (s.len : Int) ∣ 2 ^ 63 := hx.resolve_left (fun h => h hmin)
        have hw : wrap64 (-n) = -2 ^ 63 := by rw [hmin]; decide
        have hz : (-2 ^ 63 : Int).tmod s.len = 0 := Int.tmod_eq_zero_of_dvd (Int.dvd_neg.2 hdv)
        rw [hw, hz]
        have := key s.len (Nat.le_refl _) (fun k => by
          rw [Int.add_emod_right, hmin]
          obtain ⟨c, hc⟩ := hdv
          rw [hc, ← Int.mul_neg, Int.add_mul_emod_self_left])
        simpa using this
      · have hw : wrap64 (-n) = -n := wrap64_of_in (by unfold InInt64 at *; omega)
        rw [hw]
        have hm0 : 0 ≤ (-n).tmod s.len := Int.tmod_nonneg _ (by omega)
        have hm1 : (-n).tmod s.len < s.len := Int.tmod_lt_of_pos _ (by omega)
        have hem : (-n).tmod s.len = (-n) % s.len := Int.tmod_eq_emod_of_nonneg (by omega)
        obtain ⟨x, hx⟩ : ∃ x : Nat, (s.len : Int) - (-n).tmod s.len = x :=
          ⟨((s.len : Int) - (-n).tmod s.len).toNat, by omega⟩
        rw [hx]
        refine key x (by omega) (fun k => ?_)
        rw [← hx, hem]
        have : (k : Int) + (s.len - (-n) % s.len) = k - (-n) % s.len + s.len := by omega
        rw [this, Int.add_emod_right, Int.sub_emod_emod]
        congr 1; omega
    · have hz : n = 0 := by omega
      rw [if_neg hneg]
      refine ⟨h, s, rfl, o, rfl, fun k hk => ?_⟩
      rw [hz, Int.add_zero, Int.emod_eq_of_lt (by omega) (by omega), Int.toNat_natCast]

/-- **C24.** `Rotate(-n)` undoes `Rotate(n)`. -/
theorem C24_rotate_undo (h : Hp T) (g1 g2 : Nat) (s : Sl) (n : Int) (o : s.Ok h) (hn : InInt64 n) (hx : n ≠ -2 ^ 63) :
    ∃ h1 s1 h2 s2, rotate h g1 s n = .ret (h1, s1) ∧ rotate h1 g2 s1 (-n) = .ret (h2, s2) ∧
      elems h2 s2 = elems h s := by
  obtain ⟨h1, s1, e1, o1, l1, g1'⟩ := C24_rotate_partial h g1 s n o hn (Or.inl hx)
  obtain ⟨h2, s2, e2, o2, l2, g2'⟩ := C24_rotate_partial h1 g2 s1 (-n) o1 (by unfold InInt64 at *; omega)
    (Or.inl (by unfold InInt64 at *; omega))
  refine ⟨h1, s1, h2, s2, e1, e2, List.ext_getElem? fun k => ?_⟩
  by_cases hk : k < s.len
  · have hnn := Int.emod_nonneg ((k : Int) + -n) (show (s.len : Int) ≠ 0 by omega)
    have hlt := Int.emod_lt_of_pos ((k : Int) + -n) (show (0 : Int) < s.len by omega)
    rw [g2' k (by omega), l1, g1' _ (by omega)]
    congr 1
    rw [Int.toNat_of_nonneg hnn, Int.emod_add_emod]
    rw [show (k : Int) + -n + n = k by omega, Int.emod_eq_of_lt (by omega) (by omega), Int.toNat_natCast]
  · rw [List.getElem?_eq_none (by simp; omega), List.getElem?_eq_none (by simp; omega)]

example : ∃ h' s', rotate mem0 0 sl0 (-4) = .ret (h', s') ∧ elems h' s' = [3, 1, 2] := ⟨_, _, rfl, by decide⟩

/-! ## C25 -/

/-- **C25, `Filter`**: keeps exactly the elements satisfying `f`, in order. -/
theorem C25_filter (f : T → Bool) (h : Hp T) (s : Sl) (o : s.Ok h) :
    ∃ h' s', filter f h s = .ret (h', s') ∧ s'.Ok h' ∧ elems h' s' = (elems h s).filter f ∧
      ∀ b k, (b ≠ s.arr ∨ k < s.off ∨ s.off + s.len ≤ k) → h'.mem b k = h.mem b k := by
  obtain ⟨h', n, e, hb, hn, he, hf⟩ := filterLoop_spec (f := f) (s := s) s.len 0 0 h (by omega) (by omega)
  have hle := o.le
  refine ⟨h', ⟨s.arr, s.off, n, s.cap⟩, ?_, ⟨by simp only; omega, fun hc => hb ▸ o.lt hc⟩, ?_, hf⟩
  · simp only [filter, e, Outcome.bind_ret]
    rw [reslice_ret (by omega) (by omega) (by omega)]
    simp
  · have := window_elems h' s 0 n s.cap hn
    simp only [Nat.add_zero, Nat.sub_zero, List.drop_zero] at this
    rw [this, he]
    simp

/-- **C25, `IndexOf`**: the least index whose element satisfies `f`, or -1; `f` is called on the
elements up to that one, in order. -/
theorem C25_indexOf (f : T → Bool) (h : Hp T) (s : Sl) :
    ((indexOf f h s).1 = -1 ∧ (∀ x ∈ elems h s, f x = false) ∧ (indexOf f h s).2 = elems h s) ∨
    (∃ k : Nat, (indexOf f h s).1 = k ∧ (∃ x, (elems h s)[k]? = some x ∧ f x = true) ∧
      (∀ j x, j < k → (elems h s)[j]? = some x → f x = false) ∧ (indexOf f h s).2 = (elems h s).take (k + 1)) := by
  obtain ⟨h1, h2⟩ := indexLoop_spec f (elems h s) 0 (by omega)
  simp only [indexOf]
  rw [h1, h2]
  cases hq : (elems h s).findIdx? f with
  | none =>
    rw [List.findIdx?_eq_none_iff] at hq
    exact Or.inl ⟨rfl, hq, rfl⟩
  | some k =>
    rw [List.findIdx?_eq_some_iff_getElem] at hq
    obtain ⟨hk, hf, hj⟩ := hq
    refine Or.inr ⟨k, by simp, ⟨_, List.getElem?_eq_getElem hk, hf⟩, fun j x hjk hx => ?_, rfl⟩
    have hjl : j < (elems h s).length := by omega
    have hc := hj j hjk
    rw [List.getElem?_eq_getElem hjl] at hx
    cases hx
    simpa using hc

/-- **C25, `Contains`**: whether some element satisfies `f`; `f` is called on a prefix of the elements
in order. -/
theorem C25_contains (f : T → Bool) (h : Hp T) (s : Sl) :
    ((contains f h s).1 = true ↔ ∃ x ∈ elems h s, f x = true) ∧ (contains f h s).2 <+: elems h s := by
  obtain ⟨h1, h2⟩ := containsLoop_spec f (elems h s)
  simp only [contains]
  refine ⟨by rw [h1, List.any_eq_true], ?_⟩
  rw [h2]
  split
  · exact List.take_prefix _ _
  · exact List.prefix_refl _

theorem forEachLoop_rec (l : List T) : ∀ (i : Nat) (acc : List (Nat × T)),
    forEachLoop (fun acc j v => acc ++ [(j, v)]) l i acc = acc ++ (l.zipIdx i).map Prod.swap := by
  induction l with
  | nil => intro i acc; simp [forEachLoop]
  | cons v l ih => intro i acc; simp [forEachLoop, ih]

theorem forEachLoop_fold {σ : Type} (f : σ → Nat → T → σ) (l : List T) : ∀ (i : Nat) (x : σ),
    forEachLoop f l i x = ((l.zipIdx i).map Prod.swap).foldl (fun x p => f x p.1 p.2) x := by
  induction l with
  | nil => intro i x; simp [forEachLoop]
  | cons v l ih => intro i x; simp [forEachLoop, ih]

/-- **C25, `Each` and `ForEach`**: recording the calls gives the elements once each in index order,
`ForEach` with their indices; and any callback sees exactly that sequence. -/
theorem C25_each (h : Hp T) (s : Sl) :
    each (fun acc v => acc ++ [v]) h s [] = elems h s ∧
    forEach (fun acc i v => acc ++ [(i, v)]) h s [] = (elems h s).zipIdx.map Prod.swap ∧
    ∀ {σ : Type} (f : σ → Nat → T → σ) (x : σ),
      forEach f h s x = ((elems h s).zipIdx.map Prod.swap).foldl (fun x p => f x p.1 p.2) x := by
  refine ⟨?_, ?_, fun f x => forEachLoop_fold f _ 0 x⟩
  · simp only [each]
    have : ∀ (l acc : List T), l.foldl (fun acc v => acc ++ [v]) acc = acc ++ l := by
      intro l
      induction l with
      | nil => simp
      | cons v l ih => intro acc; simp [ih]
    simpa using this (elems h s) []
  · simpa [forEach] using forEachLoop_rec (elems h s) 0 []

example : ∃ h' s', filter (fun x => x ≠ 2) mem0 sl0 = .ret (h', s') ∧ elems h' s' = [1, 3] := ⟨_, _, rfl, by decide⟩

/-! ## C26 -/

/-- **C26 is false of the code** for sizes whose running total exceeds `int`: two elements split
after 1 and then "as much as there is" give three pieces with four elements. -/
theorem C26_refuted : ∃ r, split ⟨0, 0, 2, 2⟩ [1, 2 ^ 63 - 1] = .ret r ∧
    r.map (elems mem0) = [[1], [1], [1, 2]] ∧
    pieces (elems mem0 ⟨0, 0, 2, 2⟩) [1, 2 ^ 63 - 1] = [[1], [2]] := by
  refine ⟨[⟨0, 0, 1, 2⟩, ⟨0, 0, 1, 2⟩, ⟨0, 0, 2, 2⟩], by decide, by decide, ?_⟩
  have : elems mem0 ⟨0, 0, 2, 2⟩ = [1, 2] := by decide
  rw [this]
  simp [pieces]

/-- **C26, `Split`, what does hold**: for non-negative sizes, each at most `MaxInt64 - len` or adding
up to less than `2^63`, the pieces are the consecutive ones of these sizes plus the remainder, and
concatenate to the original. Missing from the full claim: larger sizes, where it is false. -/
theorem C26_split_partial (h : Hp T) (s : Sl) (o : s.Ok h) (ns : List Int) (hn : ∀ n ∈ ns, 0 ≤ n)
    (hs : (∀ n ∈ ns, n + s.len < 2 ^ 63) ∨ ns.sum < 2 ^ 63) :
    ∃ r, split s ns = .ret r ∧ r.map (elems h) = pieces (elems h s) (ns.map Int.toNat) ∧
      (r.map (elems h)).flatten = elems h s := by
  obtain ⟨r, h1, h2⟩ := split_spec h o ns hn hs
  exact ⟨r, h1, h2, by rw [h2, pieces_flatten]⟩

example : pieces [1, 2, 3, 4, 5] [2, 0, 1] = [[1, 2], [], [3], [4, 5]] := by decide

/-- **C26, `Batch`**: consecutive pieces of `n` elements (1 for `n ≤ 0`), the last one possibly
shorter but not empty, concatenating to the original. -/
theorem C26_batch (h : Hp T) (s : Sl) (o : s.Ok h) (hl : (s.len : Int) < 2 ^ 63) (n : Int) (N : Nat)
    (hN : N = (max n 1).toNat) :
    ∃ r, batch s n = .ret r ∧ (r.map (elems h)).flatten = elems h s ∧
      (∀ p ∈ r.map (elems h), 0 < p.length ∧ p.length ≤ N) ∧
      (∀ p ∈ (r.map (elems h)).dropLast, p.length = N) := by
  have hNN : (if n ≤ 0 then (1 : Int) else n) = (N : Int) := by split <;> omega
  have hpos : 0 < N := by omega
  have hdiv : ((s.len : Int).tdiv (N : Int)).toNat = s.len / N := by
    rw [Int.tdiv_eq_ediv_of_nonneg (by omega), ← Int.natCast_ediv, Int.toNat_natCast]
  have hsum : ∀ k : Nat, (List.replicate k (N : Int)).sum = ((k * N : Nat) : Int) := by
    intro k
    induction k with
    | zero => simp
    | succ k ih => rw [List.replicate_succ, List.sum_cons, ih]; push_cast; ring
  have hmul : s.len / N * N ≤ s.len := Nat.div_mul_le_self _ _
  obtain ⟨r, h1, h2, h3⟩ := C26_split_partial h s o (List.replicate (s.len / N) (N : Int))
    (fun m hm => by rw [List.eq_of_mem_replicate hm]; omega) (Or.inr (by rw [hsum]; omega))
  simp only [List.map_replicate, Int.toNat_natCast] at h2
  obtain ⟨h4, h5⟩ := pieces_replicate hpos (s.len / N) (elems h s) (by simp)
  refine ⟨r, ?_, h3, by rw [h2]; exact h4, by rw [h2]; exact h5⟩
  simp only [batch, hNN, hdiv, h1]

example : ∃ r, batch ⟨0, 0, 5, 5⟩ 2 = .ret r ∧ r.map (elems mem0) = [[1, 2], [3, 4], [5]] := ⟨_, rfl, by decide⟩

/-! ## C27 and C28 -/

/-- **C27 is false of the code**: `DeleteReplace` panics on an empty slice and for `i ≥ len`, `Repeat`
for a negative count, `Rotate` for the smallest `int`, `Extend` beyond what `make` can allocate. -/
theorem C27_refuted :
    deleteReplace mem0 Sl.nil 0 = .panic ∧ deleteReplace mem0 sl0 3 = .panic ∧
    rep 1000 mem0 (fun _ => 0) sl0 (-1) = .panic ∧ rotate mem0 0 sl0 (-2 ^ 63) = .panic ∧
    extend 1000 mem0 0 sl0 1001 = .panic :=
  ⟨rfl, rfl, rfl, rfl, rfl⟩

/-- `o` returns. -/
def Returns {α : Type} (o : Outcome α) : Prop := ∃ x, o = .ret x

/-- **C28, `Slice`**: keeps the clamped window; a negative `j` counts from the end. -/
theorem C28_slice (h : Hp T) (s : Sl) (i j : Int) (o : s.Ok h) (hl : (s.len : Int) < 2 ^ 63) (hj : InInt64 j) (J : Int)
    (hJ : J = if j < 0 then s.len + j else j) :
    ∃ s', slice s i j = .ret s' ∧ s'.Ok h ∧
      elems h s' = ((elems h s).take (hi i J s.len)).drop (lo i J s.len) := by
  have hw : (if j < 0 then wrap64 (s.len + j) else j) = J := by
    rw [hJ]
    split
    · exact wrap64_of_in (by unfold InInt64 at *; omega)
    · rfl
  have hlh := lo_le_hi i J s.len
  have hh := hi_le i J s.len
  have hle := o.le
  simp only [slice, hw, clamp2_eq]
  rw [reslice_ret (by omega) (by omega) (by omega)]
  refine ⟨_, rfl, ?_, ?_⟩
  · rw [show ((hi i J s.len : Int) - (lo i J s.len : Int)).toNat = hi i J s.len - lo i J s.len by omega, Int.toNat_natCast]
    exact window_ok o _ _ hlh (by omega)
  · rw [show ((hi i J s.len : Int) - (lo i J s.len : Int)).toNat = hi i J s.len - lo i J s.len by omega, Int.toNat_natCast]
    exact window_elems h s _ _ _ hh

example : ∃ s', slice sl0 1 (-1) = .ret s' ∧ elems mem0 s' = [2] := ⟨_, rfl, by decide⟩

theorem clamp_self (n : Int) : clamp n n = max n 0 := by unfold clamp; split <;> [skip; split] <;> omega

/-- **C28, `Extend`**: appends `max n 0` zero values, as long as `make` can allocate them. -/
theorem C28_extend (lim : Nat) (h : Hp T) (g : Nat) (s : Sl) (n : Int) (o : s.Ok h) (hn : n ≤ lim) :
    ∃ h' s', extend lim h g s n = .ret (h', s') ∧ s'.Ok h' ∧
      elems h' s' = elems h s ++ List.replicate n.toNat default := by
  simp only [extend, clamp_self, makeSl]
  rw [if_pos (by omega)]
  simp only [Outcome.bind_ret, alloc_elems]
  have o1 : s.Ok (h.alloc (List.replicate (max n 0).toNat default) (max n 0 - max n 0).toNat).1 := o.mono (Nat.le_succ _)
  refine ⟨(append (h.alloc (List.replicate (max n 0).toNat default) (max n 0 - max n 0).toNat).1 g s (List.replicate (max n 0).toNat default)).1,
    (append (h.alloc (List.replicate (max n 0).toNat default) (max n 0 - max n 0).toNat).1 g s (List.replicate (max n 0).toNat default)).2, rfl, append_ok _ _ _ o1, ?_⟩
  rw [append_elems, show (max n 0).toNat = n.toNat by omega]
  congr 1
  exact elems_congr fun k hk => alloc_out _ _ _ _ _ (o.lt (by have := o.le; omega))

/-- **C28, `Clear`**: empties the slice. -/
theorem C28_clear (h : Hp T) (s : Sl) (o : s.Ok h) : ∃ s', clear s = .ret s' ∧ s'.Ok h ∧ elems h s' = [] := by
  refine ⟨_, reslice_ret (by omega) (by omega) (by omega), ⟨by simp, fun hc => o.lt (by simpa using hc)⟩, ?_⟩
  simp [elems]

/-- **C28, `Repeat`**: `n`-fold concatenation for `n ≥ 0`, as long as `make` can allocate it. -/
theorem C28_repeat (lim : Nat) (hlim : (lim : Int) < 2 ^ 63) (h : Hp T) (gs : Nat → Nat) (s : Sl) (n : Int) (o : s.Ok h)
    (h0 : 0 ≤ n) (hn : s.len * n ≤ lim) :
    ∃ h' s', rep lim h gs s n = .ret (h', s') ∧ s'.Ok h' ∧ elems h' s' = timesSpec (elems h s) n.toNat := by
  have hmul : 0 ≤ (s.len : Int) * n := Int.mul_nonneg (by omega) h0
  simp only [rep]
  rw [wrap64_of_in (by unfold InInt64; omega), makeSl, if_pos (by omega)]
  simp only [Outcome.bind_ret]
  have hes : elems (h.alloc (List.replicate (0 : Int).toNat default) ((s.len : Int) * n - 0).toNat).1 s = elems h s :=
    elems_congr fun k hk => alloc_out _ _ _ _ _ (o.lt (by have := o.le; omega))
  rw [hes]
  have := repeatLoop_spec (elems h s) gs n.toNat
    (h.alloc (List.replicate (0 : Int).toNat default) ((s.len : Int) * n - 0).toNat).1
    (h.alloc (List.replicate (0 : Int).toNat default) ((s.len : Int) * n - 0).toNat).2 (alloc_ok _ _ _)
  refine ⟨_, _, rfl, this.2, ?_⟩
  rw [this.1, alloc_elems]
  simp

example : timesSpec [1, 2] 3 = [1, 2, 1, 2, 1, 2] := by decide

/-- **C28, `DeleteReplace`**: for `i < len` (negative ones count as 0) the last element moves to
position `i` and the slice gets one shorter; for other `i` and on an empty slice it panics. -/
theorem C28_deleteReplace (h : Hp T) (s : Sl) (i : Int) (o : s.Ok h) :
    (i < s.len → 0 < s.len → ∃ h' s', deleteReplace h s i = .ret (h', s') ∧ s'.Ok h' ∧
      elems h' s' = ((elems h s).set (max i 0).toNat ((elems h s).getLast?.getD default)).dropLast) ∧
    (s.len = 0 ∨ (s.len : Int) ≤ i → deleteReplace h s i = .panic) := by
  have hle := o.le
  constructor
  · intro hi hp
    have hc : clamp i s.len = max i 0 := by unfold clamp; split <;> [skip; split] <;> omega
    obtain ⟨v, hv, hv2⟩ := index_ret h (s := s) (i := (s.len : Int) - 1) (by omega) (by omega)
    obtain ⟨h', e, hb, he, _⟩ := store_ret h (s := s) (i := max i 0) v (by omega) (by omega)
    refine ⟨h', ⟨s.arr, s.off, s.len - 1, s.cap⟩, ?_, ⟨by simp only; omega, fun hc => hb ▸ o.lt hc⟩, ?_⟩
    · simp only [deleteReplace, hc, hv, e, Outcome.bind_ret]
      rw [reslice_ret (by omega) (by omega) (by omega)]
      simp only [Outcome.bind_ret, Int.toNat_zero, Nat.add_zero, Nat.sub_zero]
      rw [show ((s.len : Int) - 1 - 0).toNat = s.len - 1 by omega]
    · have := window_elems h' s 0 (s.len - 1) s.cap (by omega)
      simp only [Nat.add_zero, Nat.sub_zero, List.drop_zero] at this
      have hx : ((s.len : Int) - 1).toNat = (elems h s).length - 1 := by rw [elems_length]; omega
      rw [hx, ← List.getLast?_eq_getElem?] at hv2
      rw [this, he, hv2, List.dropLast_eq_take]
      simp
  · intro hx
    by_cases h0 : s.len = 0
    · simp only [deleteReplace, index]
      rw [if_neg (by omega)]
      rfl
    · have hi : (s.len : Int) ≤ i := hx.resolve_left h0
      have hc : clamp i s.len = s.len := by unfold clamp; split <;> [skip; split] <;> omega
      obtain ⟨v, hv, _⟩ := index_ret h (s := s) (i := (s.len : Int) - 1) (by omega) (by omega)
      simp only [deleteReplace, hc, hv, Outcome.bind_ret, store]
      rw [if_neg (by omega)]
      rfl

example : ∃ h' s', deleteReplace mem0 sl0 0 = .ret (h', s') ∧ elems h' s' = [3, 2] := ⟨_, _, rfl, by decide⟩

/-- **C27, exactly when the methods return**: `DeleteReplace` iff the slice is not empty and `i < len`;
`Rotate` iff the argument is not the smallest `int` or the length (if not 0) divides `2^63`; `Repeat`
iff the product of length and count, computed in `int`, is one `make` accepts; `Extend` iff `make`
accepts the size; all others always. The full claim - that they all always return - is false. -/
theorem C27_partial (lim : Nat) (h : Hp T) (g1 g2 : Nat) (gs : Nat → Nat) (s v : Sl) (x : T) (i j : Int) (o : s.Ok h)
    (hl : (s.len : Int) < 2 ^ 63) (hi : InInt64 i) (hj : InInt64 j) :
    Returns (slice s i j) ∧ Returns (set h s i x) ∧ Returns (get h s i) ∧ Returns (splice h g1 g2 s i j v) ∧
    Returns (expand h g1 g2 s i v) ∧ Returns (insert h g1 g2 s i x) ∧ Returns (cut h g1 g2 s i j) ∧
    Returns (delete h g1 g2 s i) ∧ Returns (push h g1 g2 s x) ∧ Returns (pop h g1 g2 s) ∧
    Returns (shift h g1 g2 s) ∧ Returns (unShift h g1 g2 s x) ∧ Returns (batch s i) ∧
    (Returns (deleteReplace h s i) ↔ 0 < s.len ∧ i < s.len) ∧
    (Returns (rotate h g1 s i) ↔ i ≠ -2 ^ 63 ∨ s.len = 0 ∨ (s.len : Int) ∣ 2 ^ 63) ∧
    (Returns (rep lim h gs s i) ↔ 0 ≤ wrap64 (s.len * i) ∧ wrap64 (s.len * i) ≤ lim) ∧
    (Returns (extend lim h g1 s i) ↔ i ≤ lim) := by
  have hsplice : ∀ (h : Hp T) (v : Sl) (i j : Int), Returns (splice h g1 g2 s i j v) := by
    intro h v i j
    have hlh := lo_le_hi i j s.len
    have hh := hi_le i j s.len
    have hle := o.le
    simp only [splice, clamp2_eq]
    rw [reslice_ret (by omega) (by omega) (by omega), reslice_ret (by omega) (by omega) (by omega)]
    exact ⟨_, rfl⟩
  have hinsert : ∀ (h : Hp T) (i : Int), Returns (insert h g1 g2 s i x) := fun h i => hsplice _ _ _ _
  have hdelete : ∀ (h : Hp T) (i : Int), Returns (delete h g1 g2 s i) := fun h i => hsplice _ _ _ _
  refine ⟨?_, ?_, ?_, hsplice _ _ _ _, hsplice _ _ _ _, hinsert _ _, hsplice _ _ _ _, hdelete _ _, hinsert _ _, ?_, ?_,
    hinsert _ _, ?_, ?_, ?_, ?_, ?_⟩
  · obtain ⟨s', e, _⟩ := C28_slice h s i j o hl hj _ rfl
    exact ⟨_, e⟩
  · by_cases h0 : s.len = 0
    · exact ⟨_, ((C20_get_set h s i x).2 h0).2⟩
    · obtain ⟨h', e, _⟩ := ((C20_get_set h s i x).1 (by omega)).2
      exact ⟨_, e⟩
  · by_cases h0 : s.len = 0
    · exact ⟨_, ((C20_get_set h s i x).2 h0).1⟩
    · exact ⟨_, ((C20_get_set h s i x).1 (by omega)).1⟩
  · unfold pop
    split
    · exact ⟨_, rfl⟩
    · obtain ⟨v, hv, _⟩ := index_ret h (s := s) (i := (s.len : Int) - 1) (by omega) (by omega)
      obtain ⟨p, hp⟩ := hdelete h ((s.len : Int) - 1)
      rw [hv, hp]
      exact ⟨_, rfl⟩
  · unfold shift
    split
    · exact ⟨_, rfl⟩
    · obtain ⟨v, hv, _⟩ := index_ret h (s := s) (i := 0) (by omega) (by omega)
      obtain ⟨p, hp⟩ := hdelete h 0
      rw [hv, hp]
      exact ⟨_, rfl⟩
  · obtain ⟨r, e, _⟩ := C26_batch h s o hl i _ rfl
    exact ⟨_, e⟩
  · constructor
    · intro ⟨p, hp⟩
      by_contra hc
      rw [(C28_deleteReplace h s i o).2 (by omega)] at hp
      cases hp
    · intro ⟨h0, h1⟩
      obtain ⟨h', s', e, _⟩ := (C28_deleteReplace h s i o).1 h1 h0
      exact ⟨_, e⟩
  · constructor
    · intro ⟨p, hp⟩
      by_contra hc
      simp only [not_or, ne_eq, not_not] at hc
      rw [hc.1, C24_refuted h g1 s hc.2.2 hc.2.1] at hp
      cases hp
    · intro hx
      by_cases h0 : s.len = 0
      · exact ⟨(h, s), by simp [rotate, h0]⟩
      · obtain ⟨h', s', e, _⟩ := C24_rotate_partial h g1 s i o hi (hx.imp id (fun h => h.resolve_left h0))
        exact ⟨_, e⟩
  · simp only [rep, makeSl]
    by_cases hc : 0 ≤ wrap64 (s.len * i) ∧ wrap64 (s.len * i) ≤ lim
    · rw [if_pos ⟨by omega, hc.1, hc.2⟩]
      exact ⟨fun _ => hc, fun _ => ⟨_, rfl⟩⟩
    · rw [if_neg (fun hx => hc ⟨hx.2.1, hx.2.2⟩)]
      refine ⟨?_, fun hx => absurd hx hc⟩
      rintro ⟨p, hp⟩
      cases hp
  · constructor
    · intro ⟨p, hp⟩
      by_contra hc
      simp only [extend, clamp_self, makeSl] at hp
      rw [if_neg (by omega)] at hp
      cases hp
    · intro hx
      obtain ⟨h', s', e, _⟩ := C28_extend lim h g1 s i o hx
      exact ⟨_, e⟩

/-! ## C29 -/

/-- **C29.** Whatever the random source returns, `Shuffle` leaves a permutation of the old content and
touches nothing else. -/
theorem C29_shuffle (h : Hp T) (s : Sl) (draw : Nat → Nat) :
    ∃ h', shuffle h s draw = .ret h' ∧ (elems h' s).Perm (elems h s) ∧
      ∀ b k, (b ≠ s.arr ∨ k < s.off ∨ s.off + s.len ≤ k) → h'.mem b k = h.mem b k := by
  obtain ⟨h', e, _, hp, hf⟩ := shuffleLoop_spec (s := s) draw s.len h (Nat.le_refl _)
  exact ⟨h', e, hp, hf⟩

example : ∃ h', shuffle mem0 ⟨0, 0, 5, 5⟩ (fun i => i * 7 + 3) = .ret h' ∧ elems h' ⟨0, 0, 5, 5⟩ = [5, 4, 3, 1, 2] := by
  refine ⟨_, rfl, by decide⟩

/-! ## C30 -/

/-- **C30 is false of the code**: an argument slice with spare capacity has that capacity overwritten
by the receiver's tail. -/
theorem C30_refuted : ∃ h' s', splice mem0 0 0 ⟨1, 0, 2, 2⟩ 0 0 ⟨0, 0, 1, 5⟩ = .ret (h', s') ∧
    elems mem0 ⟨0, 0, 5, 5⟩ = [1, 2, 3, 4, 5] ∧ elems h' ⟨0, 0, 5, 5⟩ = [1, 8, 9, 4, 5] :=
  ⟨_, _, rfl, by decide, by decide⟩

/-- **C30, what does hold**: slices apart from the receiver's cut-off part keep their elements when the
argument slice has no spare capacity (as when the arguments are given one by one), or nothing of the
receiver follows the window, or they are also apart from the argument's spare capacity. Missing from
the full claim: other argument slices, where it is false. -/
theorem C30_partial (h : Hp T) (g1 g2 : Nat) (s v t : Sl) (i j : Int) (o : s.Ok h) (ot : t.Ok h)
    (hc : NoClash s v (lo i j s.len) (s.len - hi i j s.len))
    (ht : t.arr ≠ s.arr ∨ t.off + t.len ≤ s.off + lo i j s.len ∨ s.off + s.cap ≤ t.off)
    (hv : v.cap = v.len ∨ hi i j s.len = s.len ∨ t.arr ≠ v.arr ∨ t.off + t.len ≤ v.off + v.len ∨ v.off + v.cap ≤ t.off) :
    ∃ h' s', splice h g1 g2 s i j v = .ret (h', s') ∧ elems h' t = elems h t := by
  obtain ⟨h', s', e, _, _, _, hf1, hf2⟩ := splice_spec h g1 g2 i j o hc
  refine ⟨h', s', e, elems_congr fun k hk => ?_⟩
  have hb : t.arr < h.brk := ot.lt (by have := ot.le; omega)
  by_cases h1 : v.cap = v.len ∨ hi i j s.len = s.len
  · exact hf2 _ _ hb (by omega) (h1.symm.imp Eq.symm id)
  · exact hf1 _ _ hb (by omega) (by omega)

example : ∃ h' s', splice mem0 0 0 ⟨1, 0, 2, 2⟩ 0 0 ⟨0, 0, 1, 1⟩ = .ret (h', s') ∧
    elems h' ⟨0, 0, 5, 5⟩ = elems mem0 ⟨0, 0, 5, 5⟩ :=
  C30_partial mem0 0 0 ⟨1, 0, 2, 2⟩ ⟨0, 0, 1, 1⟩ ⟨0, 0, 5, 5⟩ 0 0 ⟨by decide, fun _ => by decide⟩
    ⟨by decide, fun _ => by decide⟩ (C21_noClash _ _ _ _ (by decide)) (by decide) (by decide)

/-! ## C31 -/

/-- **C31.** `Join` is the renderings of the elements in order with the separator between neighbours. -/
theorem C31_join (fmt : T → String) (h : Hp T) (s : Sl) (sep : String) :
    join fmt h s sep = sepBy sep ((elems h s).map fmt) := by
  unfold join
  cases elems h s with
  | nil => rfl
  | cons v l =>
    rw [joinLoop, joinLoop_spec, List.map_cons, sepBy_cons]
    simp [Function.comp_def]

example : join (fun n : Nat => toString n) mem0 sl0 ", " = "1, 2, 3" := by
  rw [C31_join]
  decide

end Verif.Slicex
