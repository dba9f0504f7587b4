import Verif.CloseConc.Lemmas
import Mathlib.Tactic.Abel
/-!
# Ranked managers: nobody waits for ever, and every schedule ends
-/
namespace Verif.CloseConc

/-- The manager an action concerns. -/
def mgrOf : Act → Nat
  | .call c => c.mgr
  | .add m _ => m
  | .start m => m
  | .loop m _ => m
  | .unlock m => m

/-- The closer uses managers of lower ranks than `m`. -/
def Low (body : Nat → List Call) (rank : Nat → Nat) (m c : Nat) : Prop := ∀ a ∈ body c, rank a.mgr < rank m

def okAct (body : Nat → List Call) (rank : Nat → Nat) : Act → Prop
  | .call c => c.ranked body rank
  | .add m c => Low body rank m c
  | .loop m cs => ∀ c ∈ cs, Low body rank m c
  | _ => True

def Above (rank : Nat → Nat) (a b : Act) : Prop := ∀ m, on m b = true → rank (mgrOf a) < rank m

structure Rk (body : Nat → List Call) (rank : Nat → Nat) (s : St) : Prop where
  lists : ∀ m, ∀ c ∈ s.list m, Low body rank m c
  acts : ∀ t, ∀ a ∈ s.thr t, okAct body rank a
  order : ∀ t, (s.thr t).Pairwise (Above rank)

theorem above_call (rank : Nat → Nat) (a : Act) (c : Call) : Above rank a (.call c) := by
  intro m h
  simp [on] at h

theorem pairwise_calls (rank : Nat → Nat) (p : List Call) : (p.map Act.call).Pairwise (Above rank) := by
  induction p with
  | nil => exact List.Pairwise.nil
  | cons c p ih =>
    rw [List.map_cons, List.pairwise_cons]
    refine ⟨?_, ih⟩
    intro b hb
    simp at hb
    obtain ⟨d, _, rfl⟩ := hb
    exact above_call _ _ _

theorem rk_start {body rank} {prog : Nat → List Call} (hp : ∀ t, ∀ a ∈ prog t, a.ranked body rank) :
    Rk body rank (start prog) := by
  refine ⟨?_, ?_, fun t => pairwise_calls rank _⟩
  · intro m c hc
    simp [start] at hc
  · intro t a ha
    simp [start] at ha
    obtain ⟨c, hc, rfl⟩ := ha
    exact hp t c hc

/-- Replacing the first action by another one of the same manager keeps the order. -/
theorem pairwise_head {rank : Nat → Nat} {a b : Act} {l : List Act} (h : (a :: l).Pairwise (Above rank))
    (hm : mgrOf b = mgrOf a) : (b :: l).Pairwise (Above rank) := by
  rw [List.pairwise_cons] at h ⊢
  refine ⟨fun x hx m ho => ?_, h.2⟩
  rw [hm]; exact h.1 x hx m ho

theorem rk_step {body : Nat → List Call} {rank : Nat → Nat} {t : Nat} {s s' : St}
    (hb : ∀ c, ∀ a ∈ body c, a.ranked body rank) (hi : Rk body rank s) (hs : Step body t s s') :
    Rk body rank s' := by
  have hat := hi.acts t
  have hot := hi.order t
  refine ⟨?_, ?_, ?_⟩
  · cases hs with
    | add m c rest h =>
      rw [h] at hat
      intro m' c' hc'
      by_cases hm : m' = m
      · subst hm
        simp [St.to] at hc'
        rcases hc' with hc' | rfl
        · exact hi.lists m' c' hc'
        · exact hat _ List.mem_cons_self
      · simp [St.to, hm] at hc'
        exact hi.lists m' c' hc'
    | _ => exact hi.lists
  · intro u
    by_cases hu : u = t
    · subst hu
      cases hs with
      | lockA m c rest h h2 =>
        rw [h] at hat
        intro a ha
        simp [St.to] at ha
        rcases ha with rfl | ha
        · have := hat _ List.mem_cons_self
          exact this
        · exact hat a (List.mem_cons_of_mem _ ha)
      | add m c rest h =>
        rw [h] at hat
        intro a ha
        simp [St.to] at ha
        rcases ha with rfl | ha
        · trivial
        · exact hat a (List.mem_cons_of_mem _ ha)
      | lockC m rest h h2 =>
        rw [h] at hat
        intro a ha
        simp [St.to] at ha
        rcases ha with rfl | ha
        · trivial
        · exact hat a (List.mem_cons_of_mem _ ha)
      | start m rest h =>
        rw [h] at hat
        intro a ha
        simp [St.to] at ha
        rcases ha with rfl | ha
        · exact hi.lists m
        · exact hat a (List.mem_cons_of_mem _ ha)
      | run m c cs rest h =>
        rw [h] at hat
        intro a ha
        simp only [St.to, if_true, List.mem_append, List.mem_cons, List.mem_map] at ha
        rcases ha with ⟨d, hd, rfl⟩ | rfl | ha
        · exact hb c d hd
        · intro d hd
          have := hat _ List.mem_cons_self
          exact this d (List.mem_cons_of_mem _ hd)
        · exact hat a (List.mem_cons_of_mem _ ha)
      | done m rest h =>
        rw [h] at hat
        intro a ha
        simp [St.to] at ha
        rcases ha with rfl | ha
        · trivial
        · exact hat a (List.mem_cons_of_mem _ ha)
      | unlock m rest h =>
        rw [h] at hat
        intro a ha
        simp [St.to] at ha
        exact hat a (List.mem_cons_of_mem _ ha)
    · rw [step_other hs hu]; exact hi.acts u
  · intro u
    by_cases hu : u = t
    · subst hu
      cases hs with
      | lockA m c rest h h2 => rw [h] at hot; simp only [St.to, if_true]; exact pairwise_head hot rfl
      | add m c rest h => rw [h] at hot; simp only [St.to, if_true]; exact pairwise_head hot rfl
      | lockC m rest h h2 => rw [h] at hot; simp only [St.to, if_true]; exact pairwise_head hot rfl
      | start m rest h => rw [h] at hot; simp only [St.to, if_true]; exact pairwise_head hot rfl
      | run m c cs rest h =>
        rw [h] at hot hat
        have hlow : Low body rank m c := by
          have := hat _ List.mem_cons_self
          exact this c List.mem_cons_self
        simp only [St.to, if_true]
        rw [List.pairwise_append]
        refine ⟨pairwise_calls rank _, pairwise_head hot rfl, ?_⟩
        intro a ha b hb'
        rw [List.mem_map] at ha
        obtain ⟨d, hd, rfl⟩ := ha
        have h1 : rank d.mgr < rank m := hlow d hd
        intro m' ho
        rcases List.mem_cons.1 hb' with rfl | hb'
        · simp [on] at ho
          subst ho
          exact h1
        · have h2 := (List.pairwise_cons.1 hot).1 b hb' m' ho
          exact Nat.lt_trans h1 h2
      | done m rest h => rw [h] at hot; simp only [St.to, if_true]; exact pairwise_head hot rfl
      | unlock m rest h => rw [h] at hot; simp only [St.to, if_true]; exact (List.pairwise_cons.1 hot).2
    · rw [step_other hs hu]; exact hi.order u

theorem rk_reach {body rank prog} {s : St} (hb : ∀ c, ∀ a ∈ body c, a.ranked body rank)
    (hp : ∀ t, ∀ a ∈ prog t, a.ranked body rank) (h : Reach body prog s) : Rk body rank s := by
  induction h with
  | start => exact rk_start hp
  | step _ hs ih => exact rk_step hb ih hs

/-- A goroutine whose next action is not a call can step; so can one that calls a manager whose lock is free. -/
theorem can_step {body : Nat → List Call} {s : St} {t : Nat} {a : Act} {rest : List Act} (h : s.thr t = a :: rest)
    (hc : ∀ c, a = .call c → s.mu c.mgr = none) : ∃ s', Step body t s s' := by
  cases a with
  | call c =>
    have := hc c rfl
    cases c with
    | append m c => exact ⟨_, .lockA s m c rest h this⟩
    | close m => exact ⟨_, .lockC s m rest h this⟩
  | add m c => exact ⟨_, .add s m c rest h⟩
  | start m => exact ⟨_, .start s m rest h⟩
  | loop m cs => cases cs with
    | nil => exact ⟨_, .done s m rest h⟩
    | cons c cs => exact ⟨_, .run s m c cs rest h⟩
  | unlock m => exact ⟨_, .unlock s m rest h⟩

theorem progress {body : Nat → List Call} {rank : Nat → Nat} {s : St} (hl : Locks s) (hr : Rk body rank s) :
    ∀ (n t : Nat) (a : Act) (rest : List Act), rank (mgrOf a) = n → s.thr t = a :: rest → CanStep body s := by
  intro n
  induction n using Nat.strongRecOn with
  | _ n ih =>
    intro t a rest hn h
    by_cases hc : ∀ c, a = .call c → s.mu c.mgr = none
    · exact ⟨t, can_step h hc⟩
    · simp only [Classical.not_forall] at hc
      obtain ⟨c, rfl, hm⟩ := hc
      cases hmu : s.mu c.mgr with
      | none => exact absurd hmu hm
      | some u =>
        have h1 := hl u c.mgr
        rw [hmu] at h1
        simp only [if_true] at h1
        obtain ⟨b, hb, ho⟩ := List.countP_pos_iff.1 (show 0 < (s.thr u).countP (on c.mgr) by omega)
        cases hu : s.thr u with
        | nil => rw [hu] at hb; cases hb
        | cons x l =>
          have hord := hr.order u
          rw [hu] at hb hord
          rcases List.mem_cons.1 hb with rfl | hb
          · exact ⟨u, can_step hu (by rintro d rfl; simp [on] at ho)⟩
          · have := (List.pairwise_cons.1 hord).1 b hb c.mgr ho
            refine ih (rank (mgrOf x)) ?_ u x l rfl hu
            rw [← hn]; exact this

/-- The weight of an action. -/
def wt (rank : Nat → Nat) : Act → Nat ×ₗ Nat
  | .call c => toLex (2 * rank c.mgr + 1, 1)
  | .add m _ => toLex (2 * rank m + 1, 0)
  | .start m => toLex (2 * rank m + 1, 0)
  | .loop m cs => toLex (2 * rank m, cs.length + 1)
  | .unlock m => toLex (2 * rank m, 0)

def bag (rank : Nat → Nat) (l : List Act) : Multiset (Nat ×ₗ Nat) := (l.map (wt rank) : List _)

theorem bag_cons (rank : Nat → Nat) (a : Act) (l : List Act) : bag rank (a :: l) = {wt rank a} + bag rank l := by
  simp [bag]

theorem bag_append (rank : Nat → Nat) (l l' : List Act) : bag rank (l ++ l') = bag rank l + bag rank l' := by
  simp [bag]

/-- A step takes an action away and puts smaller ones in its place. -/
theorem bag_step {body : Nat → List Call} {rank : Nat → Nat} {t : Nat} {s s' : St}
    (hi : Rk body rank s) (hs : Step body t s s') :
    ∃ (new : Multiset (Nat ×ₗ Nat)) (a : Nat ×ₗ Nat), (∀ x ∈ new, x < a) ∧
      bag rank (s'.thr t) + {a} = bag rank (s.thr t) + new := by
  have hat := hi.acts t
  have one : ∀ (a b : Act) (rest : List Act), wt rank b < wt rank a →
      ∃ (new : Multiset (Nat ×ₗ Nat)) (x : Nat ×ₗ Nat), (∀ y ∈ new, y < x) ∧
      bag rank (b :: rest) + {x} = bag rank (a :: rest) + new := by
    intro a b rest h
    refine ⟨{wt rank b}, wt rank a, by simpa using h, ?_⟩
    rw [bag_cons, bag_cons]
    abel
  cases hs with
  | lockA m c rest h h2 =>
    rw [h]; simp only [St.to, if_true]
    exact one _ _ _ (by simp [wt, Prod.Lex.toLex_lt_toLex, Call.mgr])
  | add m c rest h =>
    rw [h]; simp only [St.to, if_true]
    exact one _ _ _ (by simp [wt, Prod.Lex.toLex_lt_toLex])
  | lockC m rest h h2 =>
    rw [h]; simp only [St.to, if_true]
    exact one _ _ _ (by simp [wt, Prod.Lex.toLex_lt_toLex, Call.mgr])
  | start m rest h =>
    rw [h]; simp only [St.to, if_true]
    exact one _ _ _ (by simp [wt, Prod.Lex.toLex_lt_toLex])
  | run m c cs rest h =>
    rw [h] at hat ⊢; simp only [St.to, if_true]
    have hlow : Low body rank m c := by
      have := hat _ List.mem_cons_self
      exact this c List.mem_cons_self
    refine ⟨bag rank ((body c).map .call) + {wt rank (.loop m cs)}, wt rank (.loop m (c :: cs)), ?_, ?_⟩
    · intro x hx
      rcases Multiset.mem_add.1 hx with hx | hx
      · simp only [bag, Multiset.mem_coe, List.map_map, List.mem_map] at hx
        obtain ⟨d, hd, rfl⟩ := hx
        have := hlow d hd
        simp only [Function.comp, wt, Prod.Lex.toLex_lt_toLex]
        left; omega
      · rw [Multiset.mem_singleton] at hx
        subst hx
        simp [wt, Prod.Lex.toLex_lt_toLex]
    · rw [bag_append, bag_cons, bag_cons]
      abel
  | done m rest h =>
    rw [h]; simp only [St.to, if_true]
    exact one _ _ _ (by simp [wt, Prod.Lex.toLex_lt_toLex])
  | unlock m rest h =>
    rw [h]; simp only [St.to, if_true]
    refine ⟨0, wt rank (.unlock m), by simp, ?_⟩
    rw [bag_cons]
    abel

def bags (rank : Nat → Nat) (N : Nat) (s : St) : Multiset (Nat ×ₗ Nat) := ∑ t ∈ Finset.range N, bag rank (s.thr t)

theorem bags_step {body : Nat → List Call} {rank : Nat → Nat} {t N : Nat} {s s' : St}
    (hi : Rk body rank s) (hs : Step body t s s') (ht : t < N) :
    Relation.CutExpand (· < ·) (bags rank N s') (bags rank N s) := by
  obtain ⟨new, a, h1, h2⟩ := bag_step hi hs
  refine ⟨new, a, h1, ?_⟩
  unfold bags
  rw [← Finset.add_sum_erase _ _ (Finset.mem_range.2 ht),
    ← Finset.add_sum_erase _ (fun u => bag rank (s.thr u)) (Finset.mem_range.2 ht)]
  have h3 : ∑ u ∈ (Finset.range N).erase t, bag rank (s'.thr u) = ∑ u ∈ (Finset.range N).erase t, bag rank (s.thr u) := by
    refine Finset.sum_congr rfl (fun u hu => ?_)
    rw [step_other hs (Finset.ne_of_mem_erase hu)]
  rw [h3]
  calc bag rank (s'.thr t) + ∑ u ∈ (Finset.range N).erase t, bag rank (s.thr u) + {a}
      = (bag rank (s'.thr t) + {a}) + ∑ u ∈ (Finset.range N).erase t, bag rank (s.thr u) := by abel
    _ = (bag rank (s.thr t) + new) + ∑ u ∈ (Finset.range N).erase t, bag rank (s.thr u) := by rw [h2]
    _ = _ := by abel

theorem step_busy {body : Nat → List Call} {t : Nat} {s s' : St} (hs : Step body t s s') : s.thr t ≠ [] := by
  cases hs <;> simp_all

theorem idle_reach {body prog} {N : Nat} (hN : ∀ t, N ≤ t → prog t = []) {s : St} (h : Reach body prog s) :
    ∀ t, N ≤ t → s.thr t = [] := by
  induction h with
  | start => intro t ht; simp [start, hN t ht]
  | @step s s' v _ hs ih =>
    intro t ht
    by_cases hv : t = v
    · subst hv
      have := ih t ht
      cases hs <;> simp_all
    · rw [step_other hs hv]; exact ih t ht

end Verif.CloseConc
