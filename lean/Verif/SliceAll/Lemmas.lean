import Verif.SliceAll.Model
import Verif.Slicex.Props
import Mathlib.Data.List.Rotate
/-!
# One call at a time
-/
namespace Verif.SliceAll
open Verif.Go Verif.Slicex

variable {T : Type} [Inhabited T]

theorem args_spec (h : Hp T) (vs : List T) {s : Sl} (o : s.Ok h) : s.Ok (args h vs).1 ∧
    elems (args h vs).1 s = elems h s ∧ elems (args h vs).1 (args h vs).2 = vs ∧
    (args h vs).2.cap = (args h vs).2.len := by
  unfold args
  split
  · rename_i he
    exact ⟨o, rfl, by rw [List.isEmpty_iff.1 he]; exact elems_nil _, rfl⟩
  · refine ⟨o.mono (Nat.le_succ _), ?_, alloc_elems _ _ _, rfl⟩
    exact elems_congr fun k hk => alloc_out _ _ _ _ _ (o.lt (by have := o.le; omega))

/-- What has to be shown of a call that returns. -/
def Good (lim : Nat) (c : Choice) (w : Hp T × Sl) (op : Op T) : Prop :=
  ∃ w' r, step lim c w op = .ret (w', r) ∧ w'.2.Ok w'.1 ∧ Effect (elems w.1 w.2) op (elems w'.1 w'.2) r

theorem rotate_of_index {l l' : List T} {n : Int} (hlen : l'.length = l.length)
    (h : ∀ k : Nat, k < l.length → l'[k]? = l[((k + n) % (l.length : Int)).toNat]?) :
    l' = l.rotate (n % (l.length : Int)).toNat := by
  refine List.ext_getElem? fun k => ?_
  by_cases hk : k < l.length
  · rw [h k hk, List.getElem?_rotate hk]
    congr 1
    have h0 : (0 : Int) ≤ n % (l.length : Int) := Int.emod_nonneg _ (by omega)
    have : (((k + (n % (l.length : Int)).toNat) % l.length : Nat) : Int) = (k + n) % (l.length : Int) := by
      push_cast
      rw [Int.toNat_of_nonneg h0, Int.add_emod_emod]
    omega
  · rw [List.getElem?_eq_none (by omega), List.getElem?_eq_none (by simp; omega)]

theorem batch_unique {N : Nat} : ∀ (a b : List (List T)), a.flatten = b.flatten →
    (∀ p ∈ a, 0 < p.length ∧ p.length ≤ N) → (∀ p ∈ a.dropLast, p.length = N) →
    (∀ p ∈ b, 0 < p.length ∧ p.length ≤ N) → (∀ p ∈ b.dropLast, p.length = N) → a = b
  | [], [], _, _, _, _, _ => rfl
  | [], q :: b, h, _, _, hb, _ => by
    have := (hb q (by simp)).1
    have := congrArg List.length h
    simp at this
    omega
  | p :: a, [], h, ha, _, _, _ => by
    have h1 := (ha p (by simp)).1
    have h2 := congrArg List.length h
    simp only [List.flatten_cons, List.length_append, List.flatten_nil, List.length_nil] at h2
    omega
  | [p], [q], h, _, _, _, _ => by simpa using h
  | [p], q :: q' :: b, h, ha, _, hb, hb' => by
    have h1 := (ha p (by simp)).2
    have h2 := hb' q (by simp)
    have h3 := (hb q' (by simp)).1
    have := congrArg List.length h
    simp at this
    omega
  | p :: p' :: a, [q], h, ha, ha', hb, _ => by
    have h1 := (hb q (by simp)).2
    have h2 := ha' p (by simp)
    have h3 := (ha p' (by simp)).1
    have := congrArg List.length h
    simp at this
    omega
  | p :: p' :: a, q :: q' :: b, h, ha, ha', hb, hb' => by
    have h1 := ha' p (by simp)
    have h2 := hb' q (by simp)
    rw [List.flatten_cons, List.flatten_cons (l := q)] at h
    obtain ⟨e1, e2⟩ := List.append_inj h (by omega)
    rw [e1, batch_unique (p' :: a) (q' :: b) e2 (fun x hx => ha x (List.mem_cons_of_mem _ hx))
      (fun x hx => ha' x (by rw [List.dropLast_cons_of_ne_nil (by simp)]; exact List.mem_cons_of_mem _ hx))
      (fun x hx => hb x (List.mem_cons_of_mem _ hx))
      (fun x hx => hb' x (by rw [List.dropLast_cons_of_ne_nil (by simp)]; exact List.mem_cons_of_mem _ hx))]

theorem insertIdx_take_drop (v : T) : ∀ (l : List T) (k : Nat), k ≤ l.length →
    l.insertIdx k v = l.take k ++ [v] ++ l.drop k
  | l, 0, _ => by simp
  | [], k + 1, h => by simp at h
  | x :: l, k + 1, h => by
    rw [List.insertIdx_succ_cons, insertIdx_take_drop v l k (by simpa using h)]
    simp

theorem bound_eq (i : Int) (n : Nat) (h : 0 < n) : bound i (n - 1) = (min (max i 0) ((n : Int) - 1)).toNat := by
  unfold bound; congr 2; omega

theorem step_good (lim : Nat) (hlim : (lim : Int) < 2 ^ 63) (c : Choice) {h : Hp T} {s : Sl} (o : s.Ok h)
    (hl : (s.len : Int) < 2 ^ 63) (op : Op T) (ht : op.Typed) (hf : op.Fits s.len)
    (hp : ¬ Panics lim (elems h s) op) : Good lim c (h, s) op := by
  have hle := o.le
  have len : (elems h s).length = s.len := elems_length h s
  cases op with
  | set i v =>
    by_cases h0 : 0 < s.len
    · obtain ⟨_, h', e, hb, he, _⟩ := (C20_get_set h s i v).1 h0
      refine ⟨(h', s), .done, by simp [step, e, Outcome.bind], o.mono (Nat.le_of_eq hb.symm), ?_, rfl⟩
      show elems h' s = _
      rw [he, len, bound_eq i _ h0]
    · obtain ⟨_, e⟩ := (C20_get_set h s i v).2 (by omega)
      refine ⟨(h, s), .done, by simp [step, e, Outcome.bind], o, ?_, rfl⟩
      show elems h s = (elems h s).set _ v
      rw [List.length_eq_zero_iff.1 (show (elems h s).length = 0 by omega)]
      rfl
  | get i =>
    by_cases h0 : 0 < s.len
    · obtain ⟨e, _⟩ := (C20_get_set h s i default).1 h0
      refine ⟨(h, s), .val _, by simp only [step, e, Outcome.bind]; rfl, o, rfl, ?_⟩
      show Res.val _ = Res.val ((elems h s).getD (bound i ((elems h s).length - 1)) default)
      rw [len, bound_eq i _ h0, List.getD_eq_getElem?_getD, elems_getElem?, if_pos (by omega)]
      rfl
    · obtain ⟨e, _⟩ := (C20_get_set h s i default).2 (by omega)
      refine ⟨(h, s), .val _, by simp only [step, e, Outcome.bind]; rfl, o, rfl, ?_⟩
      show Res.val _ = Res.val ((elems h s).getD (bound i ((elems h s).length - 1)) default)
      rw [List.length_eq_zero_iff.1 (show (elems h s).length = 0 by omega)]
      rfl
  | slice i j =>
    obtain ⟨s', e, o', he⟩ := C28_slice h s i j o hl ht.2 _ rfl
    refine ⟨(h, s'), .done, by simp [step, e, Outcome.bind], o', rfl, ?_⟩
    show elems h s' = _
    rw [he, len]
  | splice i j vs =>
    obtain ⟨o1, e1, e2, hc⟩ := args_spec h vs o
    obtain ⟨h', s', e, o', he⟩ := C21_partial (args h vs).1 c.g1 c.g2 s (args h vs).2 i j o1
      (C21_noClash _ _ _ _ (Or.inl hc))
    refine ⟨(h', s'), .done, by simp [step, unit, e, Outcome.bind], o', ?_, rfl⟩
    show elems h' s' = _
    rw [he, e1, e2]
  | expand i vs =>
    obtain ⟨o1, e1, e2, hc⟩ := args_spec h vs o
    obtain ⟨h', s', e, o', he⟩ := C21_partial (args h vs).1 c.g1 c.g2 s (args h vs).2 i i o1
      (C21_noClash _ _ _ _ (Or.inl hc))
    refine ⟨(h', s'), .done, by simp [step, unit, expand, e, Outcome.bind], o', ?_, rfl⟩
    show elems h' s' = _
    rw [he, e1, e2, spliceSpec_insert]
  | insert i v =>
    obtain ⟨h', s', e, o', he⟩ := (C21_insert_cut_delete h c.g1 c.g2 s i i v o).1
    refine ⟨(h', s'), .done, by simp [step, unit, e, Outcome.bind], o', ?_, rfl⟩
    show elems h' s' = _
    rw [he, len, insertIdx_take_drop v _ _ (by rw [len]; unfold bound; omega)]
  | cut i j =>
    obtain ⟨h', s', e, o', he⟩ := (C21_insert_cut_delete h c.g1 c.g2 s i j default o).2.1
    refine ⟨(h', s'), .done, by simp [step, unit, e, Outcome.bind], o', ?_, rfl⟩
    show elems h' s' = _
    rw [he, len]
  | delete i =>
    obtain ⟨h', s', e, o', he⟩ := (C21_insert_cut_delete h c.g1 c.g2 s i i default o).2.2 ht hf
    exact ⟨(h', s'), .done, by simp [step, unit, e, Outcome.bind], o', he, rfl⟩
  | push v =>
    obtain ⟨h', s', e, o', _, he, _⟩ := insert_spec h c.g1 c.g2 (s.len : Int) v o
    refine ⟨(h', s'), .done, by simp [step, unit, push, e, Outcome.bind], o', ?_, rfl⟩
    show elems h' s' = _
    rw [he, show bound (s.len : Int) s.len = (elems h s).length by rw [len]; unfold bound; omega,
      List.take_length, List.drop_length, List.append_nil]
  | unShift v =>
    obtain ⟨h', s', e, o', _, he, _⟩ := insert_spec h c.g1 c.g2 0 v o
    refine ⟨(h', s'), .done, by simp [step, unit, unShift, e, Outcome.bind], o', ?_, rfl⟩
    show elems h' s' = _
    rw [he, show bound 0 s.len = 0 by unfold bound; omega]
    simp
  | pop =>
    obtain ⟨h', s', r, e, o', _, he⟩ := dstep_spec o hl (.pop c.g1 c.g2)
    simp only [dspec, Prod.mk.injEq] at he
    obtain ⟨he1, he2⟩ := he
    simp only [dstep] at e
    cases hq : pop h c.g1 c.g2 s with
    | ret p =>
      obtain ⟨w, v⟩ := p
      rw [hq] at e
      simp only [outV, Prod.mk.injEq] at e
      obtain ⟨rfl, rfl⟩ := e
      refine ⟨(h', s'), .val v, by simp [step, hq, Outcome.bind], o', he1.symm, ?_⟩
      simp only [DOut.val.injEq] at he2
      rw [he2]
    | panic => rw [hq] at e; simp [outV] at e; rw [← e.2] at he2; simp at he2
    | hang => rw [hq] at e; simp [outV] at e; rw [← e.2] at he2; simp at he2
  | shift =>
    obtain ⟨h', s', r, e, o', _, he⟩ := dstep_spec o hl (.shift c.g1 c.g2)
    simp only [dspec, Prod.mk.injEq] at he
    obtain ⟨he1, he2⟩ := he
    simp only [dstep] at e
    cases hq : shift h c.g1 c.g2 s with
    | ret p =>
      obtain ⟨w, v⟩ := p
      rw [hq] at e
      simp only [outV, Prod.mk.injEq] at e
      obtain ⟨rfl, rfl⟩ := e
      refine ⟨(h', s'), .val v, by simp [step, hq, Outcome.bind], o', he1.symm, ?_⟩
      simp only [DOut.val.injEq] at he2
      rw [he2]
    | panic => rw [hq] at e; simp [outV] at e; rw [← e.2] at he2; simp at he2
    | hang => rw [hq] at e; simp [outV] at e; rw [← e.2] at he2; simp at he2
  | deleteReplace i =>
    simp only [Panics, not_or, len] at hp
    have h0 : s.len ≠ 0 := fun hz => hp.1 (List.length_eq_zero_iff.1 (len.trans hz))
    obtain ⟨h', s', e, o', he⟩ := (C28_deleteReplace h s i o).1 (by omega) (by omega)
    exact ⟨(h', s'), .done, by simp [step, unit, e, Outcome.bind], o', he, rfl⟩
  | reverse =>
    obtain ⟨h', e, hb, he, _⟩ := C24_reverse h s
    exact ⟨(h', s), .done, by simp [step, e, Outcome.bind], o.mono (Nat.le_of_eq hb.symm), he, rfl⟩
  | rotate n =>
    obtain ⟨h', s', e, o', hlen, he⟩ := C24_rotate_partial h c.g1 s n o ht (Or.inl hf)
    refine ⟨(h', s'), .done, by simp [step, unit, e, Outcome.bind], o', ?_, rfl⟩
    refine rotate_of_index (by simp [hlen]) (fun k hk => ?_)
    rw [len] at hk ⊢
    exact he k hk
  | shuffle =>
    obtain ⟨h', e, hb, hperm, _⟩ := shuffleLoop_spec (s := s) c.draw s.len h (Nat.le_refl _)
    exact ⟨(h', s), .done, by simp [step, shuffle, e, Outcome.bind], o.mono (Nat.le_of_eq hb.symm), hperm, rfl⟩
  | filter f =>
    obtain ⟨h', s', e, o', he, _⟩ := C25_filter f h s o
    exact ⟨(h', s'), .done, by simp [step, unit, e, Outcome.bind], o', he, rfl⟩
  | rep n =>
    simp only [Panics, not_or, len] at hp
    by_cases h0 : 0 ≤ n
    · obtain ⟨h', s', e, o', he⟩ := C28_repeat lim hlim h c.gs s n o h0 (by omega)
      exact ⟨(h', s'), .done, by simp [step, unit, e, Outcome.bind], o', he, rfl⟩
    · have hz : s.len = 0 := by
        by_contra hne
        exact hp.1 (Int.mul_neg_of_pos_of_neg (by omega) (by omega))
      obtain ⟨h', s', e, o', he⟩ := C28_repeat lim hlim h c.gs s 0 o (Int.le_refl _) (by omega)
      have heq : rep lim h c.gs s n = rep lim h c.gs s 0 := by
        unfold rep
        rw [show n.toNat = (0 : Int).toNat by omega, hz]
        simp
      refine ⟨(h', s'), .done, by simp [step, unit, heq, e, Outcome.bind], o', ?_, rfl⟩
      show elems h' s' = _
      rw [he, show n.toNat = (0 : Int).toNat by omega]
  | extend n =>
    simp only [Panics] at hp
    obtain ⟨h', s', e, o', he⟩ := C28_extend lim h c.g1 s n o (by omega)
    exact ⟨(h', s'), .done, by simp [step, unit, e, Outcome.bind], o', he, rfl⟩
  | clear =>
    obtain ⟨s', e, o', he⟩ := C28_clear h s o
    exact ⟨(h, s'), .done, by simp [step, e, Outcome.bind], o', he, rfl⟩
  | copy =>
    obtain ⟨h1, _, h3, _, h5⟩ := copy_spec h c.g1 o
    refine ⟨_, _, rfl, h3, ?_, by rw [← h1]⟩
    exact elems_congr fun k hk => h5 _ _ (o.lt (by have : k < s.len := hk; omega))
  | split ns =>
    obtain ⟨r, e, he, _⟩ := C26_split_partial h s o ns hf.1 hf.2
    exact ⟨(h, s), .lists (r.map (elems h)), by simp [step, e, Outcome.bind], o, rfl, by rw [he]⟩
  | batch n =>
    obtain ⟨r, e, h1, h2, h3⟩ := C26_batch h s o hl n _ rfl
    exact ⟨(h, s), .lists (r.map (elems h)), by simp [step, e, Outcome.bind], o, rfl, _, rfl, h1, h2, h3⟩
  | join fmt sep => exact ⟨_, _, rfl, o, rfl, by rw [C31_join]⟩
  | indexOf f =>
    refine ⟨_, _, rfl, o, rfl, ?_⟩
    rw [indexOf, (indexLoop_spec f (elems h s) 0 (by omega)).1]
    cases (elems h s).findIdx? f <;> simp
  | contains f => exact ⟨_, _, rfl, o, rfl, by rw [Slicex.contains, (containsLoop_spec f (elems h s)).1]⟩
  | each => exact ⟨_, _, rfl, o, rfl, by rw [(C25_each h s).1]⟩
  | forEach => exact ⟨_, _, rfl, o, rfl, by rw [(C25_each h s).2.1]⟩
  | len => exact ⟨_, _, rfl, o, rfl, by rw [len]; rfl⟩
  | finalize => exact ⟨_, _, rfl, o, rfl, rfl⟩

theorem step_panics (lim : Nat) (c : Choice) {h : Hp T} {s : Sl} (o : s.Ok h) (op : Op T) (hf : op.Fits s.len)
    (hp : Panics lim (elems h s) op) : step lim c (h, s) op = .panic := by
  have len : (elems h s).length = s.len := elems_length h s
  cases op with
  | deleteReplace i =>
    simp only [Panics, len] at hp
    have : deleteReplace h s i = .panic := (C28_deleteReplace h s i o).2 (by
      rcases hp with hp | hp
      · left; rw [← len, hp]; rfl
      · exact Or.inr hp)
    simp [step, unit, this, Outcome.bind]
  | rep n =>
    simp only [Panics, len] at hp
    have hf : InInt64 (s.len * n) := hf
    have : rep lim h c.gs s n = .panic := by
      simp only [rep]
      rw [wrap64_of_in hf, makeSl, if_neg (by omega)]
      rfl
    simp [step, unit, this, Outcome.bind]
  | extend n =>
    simp only [Panics] at hp
    have : extend lim h c.g1 s n = .panic := by
      simp only [extend, clamp_self, makeSl]
      rw [if_neg (by omega)]
      rfl
    simp [step, unit, this, Outcome.bind]
  | _ => exact absurd hp (by simp [Panics])

end Verif.SliceAll
