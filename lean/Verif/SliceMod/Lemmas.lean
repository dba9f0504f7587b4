import Verif.SliceMod.Spec
import Verif.Slicex.Lemmas
/-! # The loops -/
set_option linter.unusedSectionVars false
namespace Verif.SliceMod
open Verif.Go Verif.Slicex

variable {T σ : Type} [Inhabited T]

theorem run_append (w : W T) (a b : List (MOp T)) : run w (a ++ b) = (run w a).bind fun w => run w b := by
  induction a generalizing w with
  | nil => rfl
  | cons op a ih =>
    simp only [List.cons_append, run]
    cases step w op with
    | ret w' => exact ih w'
    | panic => rfl
    | hang => rfl

/-- No call fails, and slices stay slices. -/
theorem step_ok (w : W T) (o : w.2.Ok w.1) (op : MOp T) : ∃ w', step w op = .ret w' ∧ w'.2.Ok w'.1 ∧ w.1.brk ≤ w'.1.brk := by
  have del : ∀ i g1 g2, ∃ w', Slicex.delete w.1 g1 g2 w.2 i = .ret w' ∧ w'.2.Ok w'.1 ∧ w.1.brk ≤ w'.1.brk := by
    intro i g1 g2
    obtain ⟨h', s', e, ok, hb, -⟩ := cut_spec w.1 g1 g2 i (wrap64 (i + 1)) o
    exact ⟨(h', s'), e, ok, hb⟩
  have ins : ∀ i v g1 g2, ∃ w', Slicex.insert w.1 g1 g2 w.2 i v = .ret w' ∧ w'.2.Ok w'.1 ∧ w.1.brk ≤ w'.1.brk := by
    intro i v g1 g2
    obtain ⟨h', s', e, ok, hb, -⟩ := insert_spec w.1 g1 g2 i v o
    exact ⟨(h', s'), e, ok, hb⟩
  cases op with
  | push v g1 g2 => exact ins _ v g1 g2
  | unShift v g1 g2 => exact ins 0 v g1 g2
  | insert i v g1 g2 => exact ins i v g1 g2
  | delete i g1 g2 => exact del i g1 g2
  | pop g1 g2 =>
    simp only [step, Slicex.pop]
    split
    · exact ⟨_, rfl, o, le_refl _⟩
    · obtain ⟨v, e, -⟩ := index_ret w.1 (s := w.2) (i := (w.2.len : Int) - 1) (by omega) (by omega)
      obtain ⟨w', e', h⟩ := del (w.2.len - 1) g1 g2
      refine ⟨w', ?_, h⟩
      rw [e, Outcome.bind_ret, e']; rfl
  | shift g1 g2 =>
    simp only [step, Slicex.shift]
    split
    · exact ⟨_, rfl, o, le_refl _⟩
    · obtain ⟨v, e, -⟩ := index_ret w.1 (s := w.2) (i := (0 : Int)) (by omega) (by omega)
      obtain ⟨w', e', h⟩ := del 0 g1 g2
      refine ⟨w', ?_, h⟩
      rw [e, Outcome.bind_ret, e']; rfl
  | set i v =>
    simp only [step, Slicex.set]
    split
    · exact ⟨_, rfl, o, le_refl _⟩
    · obtain ⟨h', e, hb, -⟩ := store_ret w.1 (s := w.2) (i := clamp i (w.2.len - 1)) v (by unfold clamp; split <;> [skip; split] <;> omega)
        (by unfold clamp; split <;> [skip; split] <;> omega)
      exact ⟨(h', w.2), by rw [e]; rfl, o.mono (le_of_eq hb.symm), le_of_eq hb.symm⟩
  | reverse =>
    obtain ⟨h', e, hb, -⟩ := reverseLoop_spec (s := w.2) w.2.len w.1 0 (w.2.len - 1) (by omega) (by omega) (by omega)
    refine ⟨(h', w.2), ?_, o.mono (le_of_eq hb.symm), le_of_eq hb.symm⟩
    simp only [step, Slicex.reverse]
    rw [show reverseLoop w.2 (w.2.len + 1) w.1 0 (w.2.len - 1) = .ret h' from e]; rfl
  | clear =>
    have hl := o.le
    refine ⟨(w.1, ⟨w.2.arr, w.2.off + 0, 0 - 0, w.2.cap - 0⟩), ?_, window_ok o 0 0 (le_refl _) (by omega), le_refl _⟩
    simp only [step, Slicex.clear]
    rw [reslice_ret (le_refl _) (le_refl _) (by omega)]; rfl

theorem run_ok (ops : List (MOp T)) (w : W T) (o : w.2.Ok w.1) : ∃ w', run w ops = .ret w' ∧ w'.2.Ok w'.1 ∧ w.1.brk ≤ w'.1.brk := by
  induction ops generalizing w with
  | nil => exact ⟨w, rfl, o, le_refl _⟩
  | cons op ops ih =>
    obtain ⟨w1, e1, o1, b1⟩ := step_ok w o op
    obtain ⟨w2, e2, o2, b2⟩ := ih w1 o1
    exact ⟨w2, by rw [run, e1]; exact e2, o2, by omega⟩

/-- The log of the rest of a loop, whatever the callback does: `r` rounds to go from `k` on. -/
inductive Tr (brk : Bool → Bool) : Nat → Nat → List (Visit T) → Option Nat → Prop
  | done {k} : Tr brk 0 k [] none
  | stop {r k v ops a} : brk a = true → Tr brk (r + 1) k [⟨k, v, ops, a⟩] (some k)
  | cont {r k v ops a l q} : brk a = false → Tr brk r (k + 1) l q → Tr brk (r + 1) k (⟨k, v, ops, a⟩ :: l) q

/-- The visit of round `k`. -/
def visit (f : Callback σ T) (s0 : Sl) (x : σ) (w : W T) (k : Nat) : Visit T :=
  ⟨k, w.1.mem s0.arr (s0.off + k), (f x w k (w.1.mem s0.arr (s0.off + k))).2.1, (f x w k (w.1.mem s0.arr (s0.off + k))).2.2⟩

theorem loop_succ (brk : Bool → Bool) (f : Callback σ T) (s0 : Sl) (r k : Nat) (x : σ) (log : List (Visit T)) (w w' : W T)
    (h : run w (visit f s0 x w k).ops = .ret w') : loop brk (logged f) s0 (r + 1) k (x, log) w =
      if brk (visit f s0 x w k).ans then .ret ((((f x w k (visit f s0 x w k).value).1, log ++ [visit f s0 x w k]), w'), some k)
      else loop brk (logged f) s0 r (k + 1) ((f x w k (visit f s0 x w k).value).1, log ++ [visit f s0 x w k]) w' := by
  have h' : run w (f x w k (w.1.mem s0.arr (s0.off + k))).2.1 = .ret w' := h
  simp only [loop, logged, h', Outcome.bind_ret]
  rfl

theorem updates_cons (e : Visit T) (l : List (Visit T)) : updates (e :: l) = e.ops ++ updates l := by simp [updates]

/-- Any loop: it returns; with an invariant `P`, every visit satisfies what the invariant implies. -/
theorem loop_ok (brk : Bool → Bool) (f : Callback σ T) (s0 : Sl) (P : Nat → W T → Prop) (Q : Visit T → Prop)
    (hQ : ∀ x w k, k < s0.len → P k w → Q (visit f s0 x w k))
    (hP : ∀ x w w' k, k < s0.len → P k w → w.2.Ok w.1 → run w (visit f s0 x w k).ops = .ret w' → P (k + 1) w') :
    ∀ (r k : Nat) (x : σ) (log : List (Visit T)) (w : W T), k + r = s0.len → w.2.Ok w.1 → P k w →
    ∃ x' l w' q, loop brk (logged f) s0 r k (x, log) w = .ret (((x', log ++ l), w'), q) ∧ w'.2.Ok w'.1 ∧ Tr brk r k l q ∧
      run w (updates l) = .ret w' ∧ (∀ e ∈ l, Q e) ∧ P (k + l.length) w' := by
  intro r
  induction r with
  | zero => intro k x log w _ o p; exact ⟨x, [], w, none, by simp [loop], o, .done, rfl, by simp, p⟩
  | succ r ih =>
    intro k x log w hk o p
    obtain ⟨w1, e1, o1, -⟩ := run_ok (visit f s0 x w k).ops w o
    rw [loop_succ brk f s0 r k x log w w1 e1]
    have q1 := hQ x w k (by omega) p
    have p1 := hP x w w1 k (by omega) p o e1
    cases hb : brk (visit f s0 x w k).ans with
    | true =>
      rw [if_pos rfl]
      exact ⟨_, [visit f s0 x w k], w1, some k, rfl, o1, .stop hb, by rw [updates_cons, run_append, e1]; rfl, by simpa using q1, p1⟩
    | false =>
      rw [if_neg (by simp)]
      obtain ⟨x', l, w', q, e, o', t, hr, hq, hp⟩ := ih (k + 1) (f x w k (visit f s0 x w k).value).1 (log ++ [visit f s0 x w k]) w1 (by omega) o1 p1
      refine ⟨x', visit f s0 x w k :: l, w', q, by rw [e]; simp, o', .cont hb t, ?_, ?_, ?_⟩
      · rw [updates_cons, run_append, e1]; exact hr
      · intro e he
        rcases List.mem_cons.1 he with rfl | he
        · exact q1
        · exact hq e he
      · rw [List.length_cons, show k + (l.length + 1) = k + 1 + l.length by omega]; exact hp

theorem Tr.indices {brk : Bool → Bool} {r k : Nat} {l : List (Visit T)} {q : Option Nat} (h : Tr brk r k l q) :
    l.map Visit.index = List.range' k l.length := by
  induction h with
  | done => rfl
  | stop _ => rfl
  | cont _ _ ih => rw [List.map_cons, ih, List.length_cons, List.range'_succ]

theorem Tr.stops {brk : Bool → Bool} {r k : Nat} {l : List (Visit T)} {q : Option Nat} (h : Tr brk r k l q) :
    ∀ l₁ e l₂, l = l₁ ++ e :: l₂ → brk e.ans = true → l₂ = [] := by
  induction h with
  | done => intro l₁ e l₂ h; simp at h
  | stop _ =>
    intro l₁ e l₂ h _
    cases l₁ with
    | nil => simp only [List.nil_append, List.cons.injEq] at h; exact h.2.symm
    | cons a l₁ => simp at h
  | cont hb _ ih =>
    intro l₁ e l₂ h hs
    cases l₁ with
    | nil => simp only [List.nil_append, List.cons.injEq] at h; rw [← h.1] at hs; simp [hb] at hs
    | cons a l₁ =>
      simp only [List.cons_append, List.cons.injEq] at h
      exact ih l₁ e l₂ h.2 hs

theorem Tr.complete {brk : Bool → Bool} {r k : Nat} {l : List (Visit T)} {q : Option Nat} (h : Tr brk r k l q) :
    (q = none ∧ l.length = r ∧ ∀ e ∈ l, brk e.ans = false) ∨
    ∃ l₁ e, l = l₁ ++ [e] ∧ q = some e.index ∧ brk e.ans = true ∧ l.length ≤ r ∧ ∀ e' ∈ l₁, brk e'.ans = false := by
  induction h with
  | done => exact .inl ⟨rfl, rfl, by simp⟩
  | stop hb => exact .inr ⟨[], _, rfl, rfl, hb, by simp, by simp⟩
  | cont hb _ ih =>
    rcases ih with ⟨h1, h2, h3⟩ | ⟨l₁, e, rfl, h2, h3, h4, h5⟩
    · refine .inl ⟨h1, by simp [h2], ?_⟩
      intro e he
      rcases List.mem_cons.1 he with rfl | he
      · exact hb
      · exact h3 e he
    · refine .inr ⟨_ :: l₁, e, rfl, h2, h3, by simpa using h4, ?_⟩
      intro e he
      rcases List.mem_cons.1 he with rfl | he
      · exact hb
      · exact h5 e he

/-- A log with the right indices whose values are the elements. -/
theorem goodLog {brk : Bool → Bool} {vs : List T} {l : List (Visit T)} {q : Option Nat} (t : Tr brk vs.length 0 l q)
    (hv : ∀ e ∈ l, vs[e.index]? = some e.value) : GoodLog brk vs l := by
  have hi : l.map Visit.index = List.range l.length := by rw [t.indices, List.range_eq_range']
  have hlen : l.length ≤ vs.length := by
    rcases t.complete with ⟨_, h, _⟩ | ⟨_, _, _, _, _, h, _⟩
    · omega
    · exact h
  refine ⟨?_, hi, t.stops, ?_⟩
  · refine List.ext_getElem? fun k => ?_
    rw [List.getElem?_map, List.getElem?_take]
    by_cases hk : k < l.length
    · rw [if_pos hk, List.getElem?_eq_getElem hk, Option.map_some]
      have h1 := congrArg (fun x => x[k]?) hi
      simp only [List.getElem?_map, List.getElem?_eq_getElem hk, Option.map_some] at h1
      rw [List.getElem?_range hk] at h1
      have := hv l[k] (List.getElem_mem hk)
      rw [Option.some.inj h1] at this
      exact this.symm
    · rw [if_neg hk, List.getElem?_eq_none (by omega)]; rfl
  · rcases t.complete with ⟨_, h, _⟩ | ⟨l₁, e, h, _, hb, _, _⟩
    · exact .inl h
    · exact .inr ⟨e, by rw [h]; simp, hb⟩

/-! ## Callbacks that push, and write behind the loop -/

/-- The calls of a callback at `k` that only pushes, and sets elements up to its own. -/
def Tame (k : Nat) (ops : List (MOp T)) : Prop := ∀ op ∈ ops, match op with
  | .push _ _ _ => True
  | .set i _ => i ≤ k
  | _ => False

/-- The elements from `k` on of the slice at the start are as they were; the slice has not become shorter, and starts where it did if it
is in the same array. -/
structure Same (h0 : Hp T) (s0 : Sl) (k : Nat) (w : W T) : Prop where
  mem : ∀ j, k ≤ j → j < s0.len → w.1.mem s0.arr (s0.off + j) = h0.mem s0.arr (s0.off + j)
  len : s0.len ≤ w.2.len
  arr : w.2.arr ≠ s0.arr ∨ w.2.off = s0.off
  brk : s0.arr < w.1.brk

theorem Same.mono {h0 : Hp T} {s0 : Sl} {k k' : Nat} {w : W T} (h : Same h0 s0 k w) (hk : k ≤ k') : Same h0 s0 k' w :=
  ⟨fun j hj => h.mem j (by omega), h.len, h.arr, h.brk⟩

theorem append_place (h : Hp T) (g : Nat) (s : Sl) (vs : List T) :
    ((append h g s vs).2.arr = s.arr ∧ (append h g s vs).2.off = s.off) ∨ (append h g s vs).2.arr = h.brk := by
  unfold append
  split
  · exact .inl ⟨rfl, rfl⟩
  · exact .inr rfl

/-- `Push` appends. -/
theorem push_eq (w : W T) (o : w.2.Ok w.1) (v : T) (g1 g2 : Nat) :
    ∃ w', Slicex.push w.1 g1 g2 w.2 v = .ret w' ∧ elems w'.1 w'.2 = elems w.1 w.2 ++ [v] ∧ w'.2.Ok w'.1 ∧ w.1.brk ≤ w'.1.brk ∧
      (∀ b j, b < w.1.brk → (b ≠ w.2.arr ∨ j < w.2.off + w.2.len) → w'.1.mem b j = w.1.mem b j) ∧
      ((w'.2.arr = w.2.arr ∧ w'.2.off = w.2.off) ∨ w.1.brk ≤ w'.2.arr) := by
  obtain ⟨h', s', e, ok, hb, he, hf⟩ := insert_spec w.1 g1 g2 (w.2.len : Int) v o
  have hbd : bound (w.2.len : Int) w.2.len = w.2.len := by unfold bound; omega
  rw [hbd] at he hf
  refine ⟨(h', s'), e, ?_, ok, hb, fun b j hlt hx => hf b j hlt (by omega), ?_⟩
  · rw [he, List.take_of_length_le (by simp), List.drop_of_length_le (by simp)]; simp
  · have hle := o.le
    simp only [Slicex.insert, expand, splice, clamp2_eq] at e
    have hl : lo (w.2.len : Int) (w.2.len : Int) w.2.len = w.2.len := by unfold lo; rw [hbd]; simp
    have hh : hi (w.2.len : Int) (w.2.len : Int) w.2.len = w.2.len := by unfold hi; rw [hbd]; simp
    rw [hl, hh, reslice_ret (by omega) (by omega) (by omega), reslice_ret (by omega) (by omega) (by omega)] at e
    simp only [Outcome.bind_ret, Outcome.ret_inj] at e
    have hp := append_place (append (w.1.alloc [v] 0).1 g1 (w.1.alloc [v] 0).2
      (elems (w.1.alloc [v] 0).1 ⟨w.2.arr, w.2.off + (w.2.len : Int).toNat, ((w.2.len : Int) - w.2.len).toNat, w.2.cap - (w.2.len : Int).toNat⟩)).1 g2
      ⟨w.2.arr, w.2.off + (0 : Int).toNat, ((w.2.len : Int) - 0).toNat, w.2.cap - (0 : Int).toNat⟩
      (elems (append (w.1.alloc [v] 0).1 g1 (w.1.alloc [v] 0).2
      (elems (w.1.alloc [v] 0).1 ⟨w.2.arr, w.2.off + (w.2.len : Int).toNat, ((w.2.len : Int) - w.2.len).toNat, w.2.cap - (w.2.len : Int).toNat⟩)).1
        (append (w.1.alloc [v] 0).1 g1 (w.1.alloc [v] 0).2
      (elems (w.1.alloc [v] 0).1 ⟨w.2.arr, w.2.off + (w.2.len : Int).toNat, ((w.2.len : Int) - w.2.len).toNat, w.2.cap - (w.2.len : Int).toNat⟩)).2)
    rw [e] at hp
    rcases hp with ⟨h1, h2⟩ | h
    · exact .inl ⟨h1, by simpa using h2⟩
    · refine .inr ?_
      simp only at h ⊢
      rw [h]
      refine le_trans ?_ (append_brk _ _ _ _)
      exact Nat.le_succ _

theorem step_same {h0 : Hp T} {s0 : Sl} {k : Nat} {w w' : W T} (hk : k < s0.len) (o : w.2.Ok w.1) (s : Same h0 s0 (k + 1) w) (op : MOp T)
    (ht : Tame k [op]) (e : step w op = .ret w') : Same h0 s0 (k + 1) w' ∧
      elems w'.1 w'.2 = match op with
        | .push v _ _ => elems w.1 w.2 ++ [v]
        | .set i v => (elems w.1 w.2).set i.toNat v
        | _ => elems w.1 w.2 := by
  have ht := ht op (by simp)
  cases op with
  | push v g1 g2 =>
    obtain ⟨w1, e1, he, ok, hb, hm, hp⟩ := push_eq w o v g1 g2
    have : w1 = w' := by simpa [step, e1] using e
    subst this
    refine ⟨⟨fun j h1 h2 => ?_, ?_, ?_, lt_of_lt_of_le s.brk hb⟩, he⟩
    · rw [hm _ _ s.brk, s.mem j h1 h2]
      rcases s.arr with h | h
      · exact .inl (fun h' => h h'.symm)
      · right; have := s.len; omega
    · have := congrArg List.length he
      simp only [elems_length, List.length_append, List.length_cons, List.length_nil] at this
      have := s.len
      omega
    · rcases hp with ⟨h1, h2⟩ | h
      · rw [h1, h2]; exact s.arr
      · left; have := s.brk; omega
  | set i v =>
    have hi : i ≤ k := ht
    have hlen := s.len
    obtain ⟨h', e', hb, he, hm⟩ := store_ret w.1 (s := w.2) (i := clamp i (w.2.len - 1)) v (by unfold clamp; split <;> [skip; split] <;> omega)
        (by unfold clamp; split <;> [skip; split] <;> omega)
    have : (h', w.2) = w' := by
      simp only [step, Slicex.set] at e
      rw [if_neg (by omega), e'] at e
      simpa using e
    subst this
    have hc : (clamp i (w.2.len - 1)).toNat = i.toNat := by unfold clamp; split <;> [skip; split] <;> omega
    refine ⟨⟨fun j h1 h2 => ?_, s.len, s.arr, by simp only; rw [hb]; exact s.brk⟩, ?_⟩
    · rw [hm, s.mem j h1 h2]
      rcases s.arr with h | h
      · exact .inl (fun h' => h h'.symm)
      · right; rw [hc, h]; omega
    · simp only; rw [he, hc]
  | _ => exact absurd ht id

/-- What tame calls do to the elements. -/
def apply (l : List T) : List (MOp T) → List T
  | [] => l
  | .push v _ _ :: ops => apply (l ++ [v]) ops
  | .set i v :: ops => apply (l.set i.toNat v) ops
  | _ :: ops => apply l ops

theorem run_same {h0 : Hp T} {s0 : Sl} {k : Nat} (hk : k < s0.len) (ops : List (MOp T)) {w w' : W T} (o : w.2.Ok w.1)
    (s : Same h0 s0 (k + 1) w) (ht : Tame k ops) (e : run w ops = .ret w') :
    Same h0 s0 (k + 1) w' ∧ elems w'.1 w'.2 = apply (elems w.1 w.2) ops := by
  induction ops generalizing w with
  | nil => simp only [run, Outcome.ret_inj] at e; subst e; exact ⟨s, rfl⟩
  | cons op ops ih =>
    obtain ⟨w1, e1, o1, -⟩ := step_ok w o op
    rw [run, e1, Outcome.bind_ret] at e
    obtain ⟨s1, he⟩ := step_same hk o s op (fun x hx => ht x (by simp only [List.mem_singleton] at hx; simp [hx])) e1
    obtain ⟨s2, he2⟩ := ih o1 s1 (fun x hx => ht x (by simp [hx])) e
    refine ⟨s2, ?_⟩
    rw [he2, he]
    cases op <;> rfl

theorem apply_append (l : List T) (a b : List (MOp T)) : apply l (a ++ b) = apply (apply l a) b := by
  induction a generalizing l with
  | nil => rfl
  | cons op a ih => cases op <;> simp only [List.cons_append, apply, ih]

/-! ## Filter -/

/-- The calls of a callback that only pushes. -/
def Pushes (ops : List (MOp T)) : Prop := ∀ op ∈ ops, match op with
  | .push _ _ _ => True
  | _ => False

theorem Pushes.tame {ops : List (MOp T)} (h : Pushes ops) (k : Nat) : Tame k ops := by
  intro op ho
  have := h op ho
  cases op with
  | push v g1 g2 => trivial
  | _ => exact absurd this id

theorem apply_pushes {ops : List (MOp T)} (h : Pushes ops) (l : List T) : ∃ vs, apply l ops = l ++ vs := by
  induction ops generalizing l with
  | nil => exact ⟨[], by simp [apply]⟩
  | cons op ops ih =>
    have h1 := h op (by simp)
    cases op with
    | push v g1 g2 =>
      obtain ⟨vs, e⟩ := ih (fun x hx => h x (by simp [hx])) (l ++ [v])
      exact ⟨v :: vs, by rw [apply, e]; simp⟩
    | _ => exact absurd h1 id

theorem filterLoop_succ (f : Callback σ T) (s0 : Sl) (r k n : Nat) (x : σ) (log : List (Visit T)) (w w' : W T)
    (h : run w (visit f s0 x w k).ops = .ret w') : filterLoop (logged f) s0 (r + 1) k n (x, log) w =
      if (visit f s0 x w k).ans then (store w'.1 w'.2 n (visit f s0 x w k).value).bind fun h =>
        filterLoop (logged f) s0 r (k + 1) (n + 1) ((f x w k (visit f s0 x w k).value).1, log ++ [visit f s0 x w k]) (h, w'.2)
      else filterLoop (logged f) s0 r (k + 1) n ((f x w k (visit f s0 x w k).value).1, log ++ [visit f s0 x w k]) w' := by
  have h' : run w (f x w k (w.1.mem s0.arr (s0.off + k))).2.1 = .ret w' := h
  simp only [filterLoop, logged, h', Outcome.bind_ret]
  rfl

theorem filterLoop_spec (f : Callback σ T) (hf : ∀ x w k v, Pushes (f x w k v).2.1) (h0 : Hp T) (s0 : Sl) :
    ∀ (r k n : Nat) (x : σ) (log : List (Visit T)) (w : W T), k + r = s0.len → n ≤ k → w.2.Ok w.1 → Same h0 s0 k w →
    ∃ x' l w' n', filterLoop (logged f) s0 r k n (x, log) w = .ret (((x', log ++ l), w'), n') ∧ w'.2.Ok w'.1 ∧ n' ≤ w'.2.len ∧
      Tr (fun _ => false) r k l none ∧ (∀ e ∈ l, e.value = h0.mem s0.arr (s0.off + e.index) ∧ e.index < s0.len) ∧
      (elems w'.1 w'.2).take n' = (elems w.1 w.2).take n ++ (l.filter Visit.ans).map Visit.value := by
  intro r
  induction r with
  | zero =>
    intro k n x log w hk hn o s
    exact ⟨x, [], w, n, by simp [filterLoop], o, by have := s.len; omega, .done, by simp, by simp⟩
  | succ r ih =>
    intro k n x log w hk hn o s
    have hlt : k < s0.len := by omega
    obtain ⟨w1, e1, o1, -⟩ := run_ok (visit f s0 x w k).ops w o
    rw [filterLoop_succ f s0 r k n x log w w1 e1]
    obtain ⟨s1, he⟩ := run_same hlt _ o (s.mono (Nat.le_succ k)) ((hf _ _ _ _ : Pushes (visit f s0 x w k).ops).tame k) e1
    obtain ⟨vs, hvs⟩ := apply_pushes (hf _ _ _ _ : Pushes (visit f s0 x w k).ops) (elems w.1 w.2)
    rw [hvs] at he
    have hval : (visit f s0 x w k).value = h0.mem s0.arr (s0.off + k) := s.mem k (le_refl _) hlt
    have hl1 := s1.len
    have hl := s.len
    have htake : (elems w1.1 w1.2).take n = (elems w.1 w.2).take n := by
      rw [he, List.take_append_of_le_length (by simp; omega)]
    cases ha : (visit f s0 x w k).ans with
    | true =>
      rw [if_pos rfl]
      obtain ⟨h', es, hb, hel, hm⟩ := store_ret w1.1 (s := w1.2) (i := (n : Int)) (visit f s0 x w k).value (by omega) (by omega)
      rw [es, Outcome.bind_ret]
      have s2 : Same h0 s0 (k + 1) (h', w1.2) := by
        refine ⟨fun j h1 h2 => ?_, s1.len, s1.arr, by simp only; rw [hb]; exact s1.brk⟩
        rw [hm, s1.mem j h1 h2]
        rcases s1.arr with h | h
        · exact .inl (fun h' => h h'.symm)
        · right; rw [h]; simp only [Int.toNat_natCast]; omega
      obtain ⟨x', l, w', n', e, o', hn', t, hv, hel'⟩ := ih (k + 1) (n + 1) (f x w k (visit f s0 x w k).value).1 (log ++ [visit f s0 x w k]) (h', w1.2)
        (by omega) (by omega) (o1.mono (le_of_eq hb.symm)) s2
      refine ⟨x', visit f s0 x w k :: l, w', n', by rw [e]; simp, o', hn', .cont rfl t, ?_, ?_⟩
      · intro e he
        rcases List.mem_cons.1 he with rfl | he
        · exact ⟨hval, hlt⟩
        · exact hv e he
      · rw [hel', List.filter_cons_of_pos ha]
        simp only
        rw [hel, Int.toNat_natCast, List.take_succ_eq_append_getElem (by simp; omega)]
        rw [List.getElem_set_self, List.take_set_of_le (le_refl _), htake]
        simp
    | false =>
      rw [if_neg (by simp)]
      obtain ⟨x', l, w', n', e, o', hn', t, hv, hel'⟩ := ih (k + 1) n (f x w k (visit f s0 x w k).value).1 (log ++ [visit f s0 x w k]) w1
        (by omega) (by omega) o1 s1
      refine ⟨x', visit f s0 x w k :: l, w', n', by rw [e]; simp, o', hn', .cont rfl t, ?_, ?_⟩
      · intro e he
        rcases List.mem_cons.1 he with rfl | he
        · exact ⟨hval, hlt⟩
        · exact hv e he
      · rw [hel', htake, List.filter_cons_of_neg (by simp [ha])]

end Verif.SliceMod
