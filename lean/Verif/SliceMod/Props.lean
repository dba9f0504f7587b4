import Verif.SliceMod.Lemmas
/-!
# Changing a slice while going through it: property C89
-/
set_option linter.unusedSectionVars false
namespace Verif.SliceMod
open Verif.Go

/-- C89 in full: whatever the callback does to the slice, `ForEach` calls it once for each element the slice had at the start; and
`Filter` keeps those for which it returned true. -/
def C89_full : Prop := ∀ (T σ : Type) [Inhabited T] (f : Callback σ T) (x : σ) (w : W T), w.2.Ok w.1 →
  (∃ x' l w', forEach (logged f) (x, []) w = .ret ((x', l), w') ∧ GoodLog (fun _ => false) (elems w.1 w.2) l) ∧
  (∃ x' l w', filter (logged f) (x, []) w = .ret ((x', l), w') ∧ GoodLog (fun _ => false) (elems w.1 w.2) l ∧
    elems w'.1 w'.2 = (l.filter Visit.ans).map Visit.value)

section
variable {T σ : Type} [Inhabited T]

/-- C89, every callback: the loop returns, calls the callback for indices 0, 1, 2, … at most as often as the slice was long at the
start, and exactly so often unless a call ends it; what the callback did to the slice is what is left. -/
theorem C89_loop (brk : Bool → Bool) (f : Callback σ T) (x : σ) (w : W T) (o : w.2.Ok w.1) :
    ∃ x' l w' q, loop brk (logged f) w.2 w.2.len 0 (x, []) w = .ret (((x', l), w'), q) ∧
      l.map Visit.index = List.range l.length ∧ run w (updates l) = .ret w' ∧
      (∀ l₁ e l₂, l = l₁ ++ e :: l₂ → brk e.ans = true → l₂ = []) ∧
      ((q = none ∧ l.length = w.2.len ∧ ∀ e ∈ l, brk e.ans = false) ∨
        ∃ e ∈ l, q = some e.index ∧ brk e.ans = true ∧ l.length ≤ w.2.len) := by
  obtain ⟨x', l, w', q, e, -, t, hr, -, -⟩ := loop_ok brk f w.2 (fun _ _ => True) (fun _ => True) (fun _ _ _ _ _ => trivial)
    (fun _ _ _ _ _ _ _ _ => trivial) w.2.len 0 x [] w (by omega) o trivial
  rw [List.nil_append] at e
  refine ⟨x', l, w', q, e, ?_, hr, t.stops, ?_⟩
  · rw [t.indices, List.range_eq_range']
  · rcases t.complete with h | ⟨l₁, e, rfl, h2, h3, h4, -⟩
    · exact .inl h
    · exact .inr ⟨_, by simp, h2, h3, h4⟩

theorem loop_tame (brk : Bool → Bool) (f : Callback σ T) (x : σ) (w : W T) (o : w.2.Ok w.1)
    (hf : ∀ x w k v, Tame k (f x w k v).2.1) :
    ∃ x' l w' q, loop brk (logged f) w.2 w.2.len 0 (x, []) w = .ret (((x', l), w'), q) ∧
      GoodLog brk (elems w.1 w.2) l ∧ Tr brk w.2.len 0 l q ∧ elems w'.1 w'.2 = apply (elems w.1 w.2) (updates l) := by
  by_cases hz : w.2.len = 0
  · refine ⟨x, [], w, none, by rw [hz]; rfl, ?_, by rw [hz]; exact .done, rfl⟩
    exact ⟨by simp, by simp, by simp, .inl (by simp [hz])⟩
  · have hle := o.le
    have s0 : Same w.1 w.2 0 w := ⟨fun _ _ _ => rfl, le_refl _, .inr rfl, o.lt (by omega)⟩
    obtain ⟨x', l, w', q, e, -, t, hr, hv, -⟩ := loop_ok brk f w.2 (fun k w' => Same w.1 w.2 k w')
      (fun e => (elems w.1 w.2)[e.index]? = some e.value ∧ Tame e.index e.ops ∧ e.index < w.2.len)
      (fun x w' k hk s => ⟨by rw [elems_getElem?]; rw [if_pos (show (visit f w.2 x w' k).index < w.2.len from hk)]; exact congrArg some (s.mem k (le_refl _) hk).symm,
        hf _ _ _ _, hk⟩)
      (fun x w1 w2 k hk s o1 hr => (run_same hk _ o1 (s.mono (Nat.le_succ k)) (hf _ _ _ _) hr).1) w.2.len 0 x [] w (by omega) o s0
    rw [List.nil_append] at e
    refine ⟨x', l, w', q, e, goodLog (by rw [elems_length]; exact t) (fun e he => (hv e he).1), t, ?_⟩
    -- the elements
    have gen : ∀ (r k : Nat) (l : List (Visit T)) (q : Option Nat), Tr brk r k l q → (∀ e ∈ l, Tame e.index e.ops ∧ e.index < w.2.len) →
        ∀ w1 : W T, w1.2.Ok w1.1 → Same w.1 w.2 k w1 → run w1 (updates l) = .ret w' → elems w'.1 w'.2 = apply (elems w1.1 w1.2) (updates l) := by
      intro r k l q t
      induction t with
      | done => intro _ w1 _ _ h; simp only [updates, List.flatMap_nil, run, Outcome.ret_inj] at h; subst h; rfl
      | stop _ =>
        intro h w1 o1 s1 hr
        obtain ⟨h1, h2⟩ := h _ (List.mem_singleton.2 rfl)
        rw [updates_cons] at hr ⊢
        rw [show updates ([] : List (Visit T)) = [] from rfl, List.append_nil] at hr ⊢
        exact (run_same h2 _ o1 (s1.mono (Nat.le_succ _)) h1 hr).2
      | cont _ _ ih =>
        intro h w1 o1 s1 hr
        obtain ⟨h1, h2⟩ := h _ (List.mem_cons.2 (.inl rfl))
        rw [updates_cons] at hr ⊢
        rename_i ops a l' q' hb tr
        obtain ⟨w2, e2, o2, -⟩ := run_ok ops w1 o1
        obtain ⟨s2, he2⟩ := run_same h2 _ o1 (s1.mono (Nat.le_succ _)) h1 e2
        rw [run_append, e2, Outcome.bind_ret] at hr
        rw [apply_append, ← he2]
        exact ih (fun e he => h e (List.mem_cons.2 (.inr he))) w2 o2 s2 hr
    exact gen _ _ _ _ t (fun e he => (hv e he).2) w o s0 hr

/-- C89 for callbacks that only push, and set elements the loop has passed or is at: the calls are for the elements the slice had at
the start, with their values at the start, and the pushed and set values are in the slice afterwards. -/
theorem C89_partial (f : Callback σ T) (x : σ) (w : W T) (o : w.2.Ok w.1) (hf : ∀ x w k v, Tame k (f x w k v).2.1) :
    (∃ x' l w', forEach (logged f) (x, []) w = .ret ((x', l), w') ∧ GoodLog (fun _ => false) (elems w.1 w.2) l ∧
      elems w'.1 w'.2 = apply (elems w.1 w.2) (updates l)) ∧
    (∃ x' l w' i, indexOf (logged f) (x, []) w = .ret (((x', l), w'), i) ∧ GoodLog (fun b => b) (elems w.1 w.2) l ∧
      elems w'.1 w'.2 = apply (elems w.1 w.2) (updates l) ∧
      ((i = -1 ∧ ∀ e ∈ l, e.ans = false) ∨ ∃ e ∈ l, e.ans = true ∧ i = e.index)) ∧
    (∃ x' l w' b, contains (logged f) (x, []) w = .ret (((x', l), w'), b) ∧ GoodLog (fun b => b) (elems w.1 w.2) l ∧
      elems w'.1 w'.2 = apply (elems w.1 w.2) (updates l) ∧ (b = true ↔ ∃ e ∈ l, e.ans = true)) ∧
    (∃ x' l w', iterate (logged f) (x, []) w = .ret ((x', l), w') ∧ GoodLog (fun b => !b) (elems w.1 w.2) l ∧
      elems w'.1 w'.2 = apply (elems w.1 w.2) (updates l)) := by
  refine ⟨?_, ?_, ?_, ?_⟩
  · obtain ⟨x', l, w', q, e, h1, -, h2⟩ := loop_tame (fun _ => false) f x w o hf
    exact ⟨x', l, w', by simp [forEach, e], h1, h2⟩
  · obtain ⟨x', l, w', q, e, h1, t, h2⟩ := loop_tame (fun b => b) f x w o hf
    refine ⟨x', l, w', _, by simp only [indexOf, e, Outcome.map_ret]; rfl, h1, h2, ?_⟩
    rcases t.complete with ⟨rfl, _, h⟩ | ⟨l₁, e, rfl, rfl, h, _, _⟩
    · exact .inl ⟨rfl, h⟩
    · exact .inr ⟨_, by simp, h, rfl⟩
  · obtain ⟨x', l, w', q, e, h1, t, h2⟩ := loop_tame (fun b => b) f x w o hf
    refine ⟨x', l, w', _, by simp only [contains, e, Outcome.map_ret]; rfl, h1, h2, ?_⟩
    rcases t.complete with ⟨rfl, _, h⟩ | ⟨l₁, e, rfl, rfl, h, _, _⟩
    · simp only [Option.isSome_none, Bool.false_eq_true, false_iff, not_exists, not_and]
      intro e he; rw [h e he]; simp
    · exact ⟨fun _ => ⟨_, by simp, h⟩, fun _ => rfl⟩
  · obtain ⟨x', l, w', q, e, h1, -, h2⟩ := loop_tame (fun b => !b) f x w o hf
    exact ⟨x', l, w', by simp [iterate, e], h1, h2⟩

/-- C89 for `Filter` and callbacks that only push: the elements for which the callback returned true are left, in order; what was pushed
is gone. -/
theorem C89_filter_partial (f : Callback σ T) (x : σ) (w : W T) (o : w.2.Ok w.1) (hf : ∀ x w k v, Pushes (f x w k v).2.1) :
    ∃ x' l w', filter (logged f) (x, []) w = .ret ((x', l), w') ∧ GoodLog (fun _ => false) (elems w.1 w.2) l ∧
      elems w'.1 w'.2 = (l.filter Visit.ans).map Visit.value := by
  by_cases hz : w.2.len = 0
  · refine ⟨x, [], (w.1, ⟨w.2.arr, w.2.off + 0, 0 - 0, w.2.cap - 0⟩), ?_, ⟨by simp, by simp, by simp, .inl (by simp [hz])⟩, ?_⟩
    · have : reslice w.2 0 ((0 : Nat) : Int) = .ret ⟨w.2.arr, w.2.off + 0, 0 - 0, w.2.cap - 0⟩ := by
        rw [reslice_ret (le_refl _) (by simp) (by simp)]; rfl
      simp only [filter, hz, filterLoop, Outcome.bind_ret, this]
    · simp [elems]
  · have hle := o.le
    have s0 : Same w.1 w.2 0 w := ⟨fun _ _ _ => rfl, le_refl _, .inr rfl, o.lt (by omega)⟩
    obtain ⟨x', l, w', n', e, o', hn, t, hv, he⟩ := filterLoop_spec f hf w.1 w.2 w.2.len 0 0 x [] w (by omega) (le_refl _) o s0
    rw [List.nil_append] at e
    have hle' := o'.le
    refine ⟨x', l, (w'.1, ⟨w'.2.arr, w'.2.off + 0, n' - 0, w'.2.cap - 0⟩), ?_, ?_, ?_⟩
    · have : reslice w'.2 0 (n' : Int) = .ret ⟨w'.2.arr, w'.2.off + 0, n' - 0, w'.2.cap - 0⟩ := by
        rw [reslice_ret (le_refl _) (by simp) (by omega)]; simp
      simp only [filter, e, Outcome.bind_ret, this]
    · refine goodLog (by rw [elems_length]; exact t) (fun e he => ?_)
      obtain ⟨h1, h2⟩ := hv e he
      rw [elems_getElem?, if_pos h2, h1]
    · simp only
      rw [window_elems _ _ _ _ _ hn, List.drop_zero, he]
      simp

/-! ## Replacing every element -/

/-- `s.ForEach(func(i int, v T) { s.Set(i, g(v)) })`. -/
def mapping (g : T → T) : Callback Unit T := fun _ _ k v => ((), [.set k (g v)], false)

/-- C89, the common case: setting each element to `g` of it maps `g` over the slice. -/
theorem C89_map (g : T → T) (w : W T) (o : w.2.Ok w.1) :
    ∃ w', forEach (mapping g) () w = .ret ((), w') ∧ elems w'.1 w'.2 = (elems w.1 w.2).map g := by
  -- without the log
  have gen : ∀ (r k : Nat) (w1 : W T), k + r = w.2.len → w1.2 = w.2 → (w.2.Ok w1.1) →
      ∃ h', loop (fun _ => false) (mapping g) w.2 r k () w1 = .ret (((), (h', w.2)), none) ∧
        ∀ j, j < w.2.len → h'.mem w.2.arr (w.2.off + j) = if k ≤ j then g (w1.1.mem w.2.arr (w.2.off + j)) else w1.1.mem w.2.arr (w.2.off + j) := by
    intro r
    induction r with
    | zero =>
      intro k w1 hk hs _
      refine ⟨w1.1, by simp only [loop]; rw [← hs], fun j hj => by rw [if_neg (by omega)]⟩
    | succ r ih =>
      intro k w1 hk hs o1
      obtain ⟨h', e, hb, -, hm⟩ := store_ret w1.1 (s := w.2) (i := (k : Int)) (g (w1.1.mem w.2.arr (w.2.off + k))) (by omega) (by omega)
      have hst : ∀ v, step w1 (.set k v) = (store w1.1 w.2 k v).map fun h => (h, w.2) := by
        intro v
        simp only [step, Slicex.set, hs]
        rw [if_neg (by omega)]
        have : Slicex.clamp (k : Int) ((w.2.len : Int) - 1) = k := by unfold Slicex.clamp; split <;> [skip; split] <;> omega
        rw [this]
      have hself : h'.mem w.2.arr (w.2.off + k) = g (w1.1.mem w.2.arr (w.2.off + k)) := by
        have : h' = w1.1.blit w.2.arr (w.2.off + (k : Int).toNat) [g (w1.1.mem w.2.arr (w.2.off + k))] := by
          unfold store at e
          rw [if_pos ⟨by omega, by omega⟩] at e
          simpa using e.symm
        rw [this, Int.toNat_natCast]
        exact blit_in _ _ _ _ _ _ (le_refl _) (by simp)
      obtain ⟨h2, e2, hj⟩ := ih (k + 1) (h', w.2) (by omega) rfl (o1.mono (le_of_eq hb.symm))
      refine ⟨h2, ?_, fun j hjl => ?_⟩
      · simp only [loop, mapping, run, hst, e, Outcome.map_ret, Outcome.bind_ret, Bool.false_eq_true, if_false]
        exact e2
      · rw [hj j hjl]
        by_cases hjk : j = k
        · subst hjk
          rw [if_neg (by omega), if_pos (le_refl _)]; exact hself
        · have : h'.mem w.2.arr (w.2.off + j) = w1.1.mem w.2.arr (w.2.off + j) := hm _ _ (.inr (by simp only [Int.toNat_natCast]; omega))
          simp only [this]
          by_cases hlt : k ≤ j
          · rw [if_pos hlt, if_pos (by omega)]
          · rw [if_neg hlt, if_neg (by omega)]
  obtain ⟨h', e, hj⟩ := gen w.2.len 0 w (by omega) rfl o
  refine ⟨(h', w.2), by simp only [forEach, e, Outcome.map_ret], ?_⟩
  refine elems_ext (by simp) (fun k hk => ?_)
  rw [List.getElem?_map, elems_getElem?, if_pos hk, hj k hk, if_pos (Nat.zero_le _)]
  rfl

end

/-! ## What goes wrong -/

/-- [1, 2, 3] in an array of its own. -/
def exW : W Int := Hp.alloc ⟨fun _ _ => 0, 1⟩ [1, 2, 3] 0

/-- Takes away the first element at each call. -/
def shifting : Callback Unit Int := fun _ _ _ _ => ((), [.shift 0 0], true)

/-- C89 is false when the callback deletes: with `Shift` in the callback the loop sees 1, 3, 3 instead of 1, 2, 3. -/
theorem C89_shift : ∃ w', forEach (logged shifting) ((), []) exW =
    .ret (((), [⟨0, 1, [.shift 0 0], true⟩, ⟨1, 3, [.shift 0 0], true⟩, ⟨2, 3, [.shift 0 0], true⟩]), w') := ⟨_, rfl⟩

theorem exW_ok : exW.2.Ok exW.1 := alloc_ok _ _ _

theorem C89_refuted : ¬ C89_full := by
  intro h
  obtain ⟨x', l, w', e, hg⟩ := (h Int Unit shifting () exW exW_ok).1
  obtain ⟨w'', e'⟩ := C89_shift
  rw [e] at e'
  simp only [Outcome.ret_inj, Prod.mk.injEq] at e'
  have := hg.values
  rw [e'.1.2] at this
  exact absurd this (by decide)

/-- C89 is false for `Filter` and callbacks that shorten the slice: it panics. -/
theorem C89_filter_panic : filter (logged (fun _ _ _ _ => ((), [.pop 0 0], true)) : Callback (Unit × List (Visit Int)) Int) ((), [])
    (Hp.alloc ⟨fun _ _ => 0, 1⟩ [1] 0) = .panic := rfl

/-- Of a callback that pushes and sets, for `C89_partial`: reads 1, 2, 3 and leaves 0, 0, 0, 1, 2, 3. -/
def busy : Callback Unit Int := fun _ _ k v => ((), [.push v 0 0, .set k 0], false)

example : ∀ x w k v, Tame k (busy x w k v).2.1 := by
  intro x w k v op ho
  simp only [busy, List.mem_cons, List.not_mem_nil, or_false] at ho
  rcases ho with rfl | rfl
  · trivial
  · exact le_refl _

example : ∃ h s, forEach busy () exW = .ret ((), (h, s)) ∧ elems h s = [0, 0, 0, 1, 2, 3] := ⟨_, _, rfl, by decide⟩

/-- For `C89_filter_partial`. -/
example : ∃ h s, filter (fun _ _ _ v => ((), [.push 9 0 0], v != 2)) () exW = .ret ((), (h, s)) ∧ elems h s = [1, 3] := ⟨_, _, rfl, by decide⟩

example : ∀ (x : Unit) (w : W Int) (k : Nat) (v : Int), Pushes ((fun _ _ _ v => ((), [.push 9 0 0], v != 2) : Callback Unit Int) x w k v).2.1 := by
  intro x w k v op ho
  simp only [List.mem_singleton] at ho
  subst ho; trivial

end Verif.SliceMod
