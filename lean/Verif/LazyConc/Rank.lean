import Verif.LazyConc.Lemmas
/-!
# Ranked lazies: the values exist, nobody waits for ever, and every schedule ends
-/
namespace Verif.LazyConc

variable {V : Type}

/-- The values of ranked lazies. -/
def sol (P : Prog V) {rank : Nat → Nat} (h : Ranked P rank) : Nat → V :=
  (measure rank).wf.fix (fun i rec => P.ctor i ((P.deps i).attach.map (fun j => rec j.1 (h i j.1 j.2))))

theorem sol_solves (P : Prog V) {rank : Nat → Nat} (h : Ranked P rank) : Solves P (sol P h) := by
  intro i
  conv_lhs => rw [sol, WellFounded.fix_eq]
  congr 1
  exact List.attach_map_val (l := P.deps i) (f := sol P h)

theorem sol_unique {P : Prog V} {rank : Nat → Nat} (h : Ranked P rank) {f g : Nat → V} (hf : Solves P f)
    (hg : Solves P g) : f = g := by
  have : ∀ n i, rank i = n → f i = g i := by
    intro n
    induction n using Nat.strongRecOn with
    | _ n ih =>
      intro i hi
      rw [hf i, hg i]
      congr 1
      refine List.map_congr_left (fun j hj => ?_)
      exact ih (rank j) (by have := h i j hj; omega) j rfl
  exact funext (fun i => this _ i rfl)

/-- The lazy a frame is about. -/
def lz : Fr V → Option Nat
  | .main _ _ => none
  | .load i => some i
  | .lock i => some i
  | .check i => some i
  | .build i _ _ => some i
  | .write i _ => some i
  | .setDone i => some i
  | .unlock i => some i
  | .read i => some i

/-- The frames below belong to lazies of higher ranks. -/
theorem below {P : Prog V} {rank : Nat → Nat} (hr : Ranked P rank) {val : Nat → V} {p : List Nat} :
    ∀ (l : List (Fr V)) (j : Nat), okStack P val p (some j) l → ∀ i, ∀ f ∈ l, holds i f = true → rank j < rank i := by
  intro l
  induction l with
  | nil => intro j h; exact h.elim
  | cons x l ih =>
    intro j h i f hf ho
    cases x with
    | main todo got =>
      obtain ⟨rfl, _⟩ := h
      simp at hf; subst hf; simp [holds] at ho
    | build k todo got =>
      obtain ⟨⟨pre, h1, _⟩, h2⟩ := h
      have hjk : rank j < rank k := hr k j (by rw [h1]; simp)
      rcases List.mem_cons.1 hf with rfl | hf
      · simp [holds] at ho; subst ho; exact hjk
      · exact Nat.lt_trans hjk (ih k h2 i f hf ho)
    | _ => simp [okStack] at h

/-- The frames below the first one. -/
theorem below_top {P : Prog V} {rank : Nat → Nat} (hr : Ranked P rank) {val : Nat → V} {p : List Nat} {x : Fr V}
    {l : List (Fr V)} (h : okStack P val p none (x :: l)) {i : Nat} {f : Fr V} (hf : f ∈ l) (ho : holds i f = true) :
    ∃ j, lz x = some j ∧ rank j < rank i := by
  cases x with
  | main todo got => obtain ⟨rfl, _⟩ := h; cases hf
  | load j => exact ⟨j, rfl, below hr l j h.2 i f hf ho⟩
  | lock j => exact ⟨j, rfl, below hr l j h.2 i f hf ho⟩
  | check j => exact ⟨j, rfl, below hr l j h.2 i f hf ho⟩
  | build j todo got => exact ⟨j, rfl, below hr l j h.2 i f hf ho⟩
  | write j v => exact ⟨j, rfl, below hr l j h.2.2 i f hf ho⟩
  | setDone j => exact ⟨j, rfl, below hr l j h.2 i f hf ho⟩
  | unlock j => exact ⟨j, rfl, below hr l j h.2 i f hf ho⟩
  | read j => exact ⟨j, rfl, below hr l j h.2 i f hf ho⟩

/-- A goroutine can step unless it has finished or waits for a mutex. -/
theorem can_step {P : Prog V} {s : St V} {t : Nat} {f : Fr V} {l : List (Fr V)} (h : s.thr t = f :: l)
    (hm : ∀ got, f ≠ .main [] got) (hk : ∀ i, f = .lock i → s.mu i = none) : ∃ s', Step P t s s' := by
  cases f with
  | main todo got => cases todo with
    | nil => exact absurd rfl (hm got)
    | cons i todo => exact ⟨_, .call s i todo got l h⟩
  | load i => cases hd : s.done i with
    | true => exact ⟨_, .loadSet s i l h hd⟩
    | false => exact ⟨_, .loadUnset s i l h hd⟩
  | lock i => exact ⟨_, .lock s i l h (hk i rfl)⟩
  | check i => cases hd : s.done i with
    | true => exact ⟨_, .checkSet s i l h hd⟩
    | false => exact ⟨_, .checkUnset s i l h hd⟩
  | build i todo got => cases todo with
    | nil => exact ⟨_, .built s i got l h⟩
    | cons j todo => exact ⟨_, .need s i j todo got l h⟩
  | write i v => exact ⟨_, .write s i v l h⟩
  | setDone i => exact ⟨_, .setDone s i l h⟩
  | unlock i => exact ⟨_, .unlock s i l h⟩
  | read i => exact ⟨_, .read s i l h⟩

theorem progress {P : Prog V} {rank : Nat → Nat} (hr : Ranked P rank) {val : Nat → V} {prog} {s : St V}
    (hl : Locks s) (hv : Vals P val prog s) :
    ∀ (n t j : Nat) (f : Fr V) (l : List (Fr V)), rank j = n → lz f = some j → s.thr t = f :: l → CanStep P s := by
  intro n
  induction n using Nat.strongRecOn with
  | _ n ih =>
    intro t j f l hn hj h
    by_cases hk : ∀ i, f = .lock i → s.mu i = none
    · exact ⟨t, can_step h (by rintro got rfl; simp [lz] at hj) hk⟩
    · simp only [Classical.not_forall] at hk
      obtain ⟨i, rfl, hm⟩ := hk
      simp only [lz, Option.some.injEq] at hj
      subst hj
      cases hmu : s.mu i with
      | none => exact absurd hmu hm
      | some u =>
        have h1 := hl u i
        rw [hmu] at h1
        simp only [if_true] at h1
        obtain ⟨b, hb, ho⟩ := List.countP_pos_iff.1 (show 0 < (s.thr u).countP (holds i) by omega)
        cases hu : s.thr u with
        | nil => rw [hu] at hb; cases hb
        | cons x m =>
          have hst := hv.stk u
          rw [hu] at hb hst
          rcases List.mem_cons.1 hb with rfl | hb
          · exact ⟨u, can_step hu (by rintro got rfl; simp [holds] at ho) (by rintro k rfl; simp [holds] at ho)⟩
          · obtain ⟨k, hk, hlt⟩ := below_top hr hst hb ho
            exact ih (rank k) (by omega) u k x m rfl hk hu

/-- The weight of a frame. -/
def wts (rank : Nat → Nat) : Fr V → List (Nat ×ₗ Nat)
  | .main todo _ => todo.map (fun i => toLex (2 * rank i + 1, 9))
  | .load i => [toLex (2 * rank i + 1, 8)]
  | .lock i => [toLex (2 * rank i + 1, 7)]
  | .check i => [toLex (2 * rank i + 1, 6)]
  | .build i todo _ => [toLex (2 * rank i, todo.length + 9)]
  | .write i _ => [toLex (2 * rank i, 8)]
  | .setDone i => [toLex (2 * rank i, 7)]
  | .unlock i => [toLex (2 * rank i, 6)]
  | .read i => [toLex (2 * rank i, 5)]

def bag (rank : Nat → Nat) (l : List (Fr V)) : Multiset (Nat ×ₗ Nat) := (l.flatMap (wts rank) : List _)

theorem bag_cons (rank : Nat → Nat) (f : Fr V) (l : List (Fr V)) :
    bag rank (f :: l) = (wts rank f : Multiset (Nat ×ₗ Nat)) + bag rank l := by
  simp [bag]

theorem bag_ret (rank : Nat → Nat) (v : V) (l : List (Fr V)) : bag rank (ret v l) = bag rank l := by
  cases l with
  | nil => rfl
  | cons f l => cases f <;> simp [ret, bag, wts]

/-- A step takes a weight away and puts smaller ones in its place. -/
theorem bag_step {P : Prog V} {rank : Nat → Nat} (hr : Ranked P rank) {val : Nat → V} {prog} {t : Nat} {s s' : St V}
    (hi : Vals P val prog s) (hs : Step P t s s') :
    ∃ (new : Multiset (Nat ×ₗ Nat)) (a : Nat ×ₗ Nat), (∀ x ∈ new, x < a) ∧
      bag rank (s'.thr t) + {a} = bag rank (s.thr t) + new := by
  have hst := hi.stk t
  have one : ∀ (a b : Nat ×ₗ Nat) (f g : Fr V) (l : List (Fr V)), wts rank f = [a] → wts rank g = [b] → b < a →
      ∃ (new : Multiset (Nat ×ₗ Nat)) (x : Nat ×ₗ Nat), (∀ y ∈ new, y < x) ∧
      bag rank (g :: l) + {x} = bag rank (f :: l) + new := by
    intro a b f g l hf hg h
    refine ⟨{b}, a, by simpa using h, ?_⟩
    rw [bag_cons, bag_cons, hf, hg, Multiset.coe_singleton, Multiset.coe_singleton]
    abel
  cases hs with
  | call i todo got l h =>
    rw [h]; simp only [St.to, if_true]
    refine ⟨{toLex (2 * rank i + 1, 8)}, toLex (2 * rank i + 1, 9), by simp [Prod.Lex.toLex_lt_toLex], ?_⟩
    simp only [bag_cons, wts, List.map_cons, ← Multiset.cons_coe, ← Multiset.singleton_add, Multiset.coe_nil]
    abel
  | loadSet i l h _ =>
    rw [h]; simp only [St.to, if_true]
    exact one _ _ _ _ _ rfl rfl (by simp [Prod.Lex.toLex_lt_toLex])
  | loadUnset i l h _ =>
    rw [h]; simp only [St.to, if_true]
    exact one _ _ _ _ _ rfl rfl (by simp [Prod.Lex.toLex_lt_toLex])
  | lock i l h _ =>
    rw [h]; simp only [St.to, if_true]
    exact one _ _ _ _ _ rfl rfl (by simp [Prod.Lex.toLex_lt_toLex])
  | checkSet i l h _ =>
    rw [h]; simp only [St.to, if_true]
    exact one _ _ _ _ _ rfl rfl (by simp [Prod.Lex.toLex_lt_toLex])
  | checkUnset i l h _ =>
    rw [h]; simp only [St.to, if_true]
    exact one _ _ _ _ _ rfl rfl (by simp [Prod.Lex.toLex_lt_toLex])
  | need i j todo got l h =>
    rw [h] at hst ⊢; simp only [St.to, if_true]
    obtain ⟨⟨pre, h1, _⟩, _⟩ := hst
    have hji : rank j < rank i := hr i j (by rw [h1]; simp)
    refine ⟨{toLex (2 * rank j + 1, 8)} + {toLex (2 * rank i, todo.length + 9)},
      toLex (2 * rank i, (j :: todo).length + 9), ?_, ?_⟩
    · intro x hx
      simp only [Multiset.mem_add, Multiset.mem_singleton] at hx
      rcases hx with rfl | rfl
      · rw [Prod.Lex.toLex_lt_toLex]; left; show 2 * rank j + 1 < 2 * rank i; omega
      · rw [Prod.Lex.toLex_lt_toLex]; right; simp
    · simp only [bag_cons, wts, Multiset.coe_singleton]
      abel
  | built i got l h =>
    rw [h]; simp only [St.to, if_true]
    exact one _ _ _ _ _ rfl rfl (by simp [Prod.Lex.toLex_lt_toLex])
  | write i v l h =>
    rw [h]; simp only [St.to, if_true]
    exact one _ _ _ _ _ rfl rfl (by simp [Prod.Lex.toLex_lt_toLex])
  | setDone i l h =>
    rw [h]; simp only [St.to, if_true]
    exact one _ _ _ _ _ rfl rfl (by simp [Prod.Lex.toLex_lt_toLex])
  | unlock i l h =>
    rw [h]; simp only [St.to, if_true]
    exact one _ _ _ _ _ rfl rfl (by simp [Prod.Lex.toLex_lt_toLex])
  | read i l h =>
    rw [h]; simp only [St.to, if_true]
    refine ⟨0, toLex (2 * rank i, 5), by simp, ?_⟩
    rw [bag_ret, bag_cons, wts, Multiset.coe_singleton]
    abel

def bags (rank : Nat → Nat) (N : Nat) (s : St V) : Multiset (Nat ×ₗ Nat) := ∑ t ∈ Finset.range N, bag rank (s.thr t)

theorem bags_step {P : Prog V} {rank : Nat → Nat} (hr : Ranked P rank) {val : Nat → V} {prog} {t N : Nat} {s s' : St V}
    (hi : Vals P val prog s) (hs : Step P t s s') (ht : t < N) :
    Relation.CutExpand (· < ·) (bags rank N s') (bags rank N s) := by
  obtain ⟨new, a, h1, h2⟩ := bag_step hr hi hs
  refine ⟨new, a, h1, ?_⟩
  unfold bags
  rw [← Finset.add_sum_erase _ _ (Finset.mem_range.2 ht),
    ← Finset.add_sum_erase _ (fun u => bag rank (s.thr u)) (Finset.mem_range.2 ht)]
  have h3 : ∑ u ∈ (Finset.range N).erase t, bag rank (s'.thr u) = ∑ u ∈ (Finset.range N).erase t, bag rank (s.thr u) := by
    refine Finset.sum_congr rfl (fun u hu => ?_)
    rw [step_other hs (Finset.ne_of_mem_erase hu)]
  rw [h3]
  calc bag rank (s'.thr t) + ∑ u ∈ (Finset.range N).erase t, bag rank (s.thr u) + {a}
      = (bag rank (s'.thr t) + {a}) + ∑ u ∈ (Finset.range N).erase t, bag rank (s.thr u) := by abel
    _ = (bag rank (s.thr t) + new) + ∑ u ∈ (Finset.range N).erase t, bag rank (s.thr u) := by rw [h2]
    _ = _ := by abel

theorem step_busy {P : Prog V} {t : Nat} {s s' : St V} (hs : Step P t s s') (got : List V) :
    s.thr t ≠ [.main [] got] := by
  cases hs <;> simp_all

theorem idle_reach {P : Prog V} {zero prog} {N : Nat} (hN : ∀ t, N ≤ t → prog t = []) {s : St V}
    (h : Reach P zero prog s) : ∀ t, N ≤ t → s.thr t = [.main [] []] := by
  induction h with
  | start => intro t ht; simp [start, hN t ht]
  | @step s s' v _ hs ih =>
    intro t ht
    by_cases hv : t = v
    · subst hv; exact absurd (ih t ht) (step_busy hs [])
    · rw [step_other hs hv]; exact ih t ht

end Verif.LazyConc
