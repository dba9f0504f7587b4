import Verif.WorkMap.Lemmas
import Mathlib.Algebra.Order.BigOperators.Group.Finset
/-!
# C173: programs over several objects, each with a lock of its own; a work list and a map of results
-/
set_option linter.unusedSectionVars false
namespace Verif.WorkMap
open Verif.Conc Verif.Conc.RW Verif.SyncAny Relation

/-! ## Any objects, any programs -/

section
variable {I : Type} [DecidableEq I] {σ A C R : I → Type} {P : Type} {g : ∀ i, Guarded (σ i) (A i) (C i) (R i)} {p : Client P (Σ i, C i) (Σ i, R i)}
  {l : Nat → P} {s : Many.MSt σ A C R P}

/-- **C173.** If each of the objects by itself behaves as a simple object `o i`, programs over all of them reach nothing that they do not reach with every
call made at once on the simple ones: the calls of all goroutines on all objects have one order. -/
theorem C173_atomic (ro : ∀ i, ReadsOnly (g i)) {τ : I → Type} {o : ∀ i, Obj (τ i) (C i) (R i)} (r : ∀ i, σ i → τ i → Prop) (h0 : ∀ i, r i (g i).init (o i).init)
    (hs : ∀ i s s' c x u, r i s u → (seqObj (g i)).step s c x s' → ∃ u', (o i).step u c x u' ∧ r i s' u') (h : Many.MReach g p l s) :
    ∃ m, AReach (Many.family o) p l (m, Many.look p s) ∧ ∀ i, r i (s.obj i).m (m i) :=
  areach_sim (o := Many.family fun i => seqObj (g i)) (o' := Many.family o) (fun m u => ∀ i, r i (m i) (u i)) h0
    (fun m m' c x u hm st => Many.family_sim r hs m m' c x u hm st) (Many.atomic ro h)

/-- **C173, no deadlock.** No goroutine holds one lock while it waits for another: when none can go on all have come to the end of their programs. -/
theorem C173_stuck (ro : ∀ i, ReadsOnly (g i)) (lv : ∀ i, Live (g i)) (h : Many.MReach g p l s) (hn : ¬ ∃ s', Many.MStep g p s s') (t : Nat) :
    (∀ i, (s.obj i).pc t = .idle) ∧ p.call (s.loc t) = none := Many.stuck ro lv h hn t

/-- **C173, an end.** Programs of finitely many goroutines that end when every call is made at once on the simple objects end. -/
theorem C173_ends (ro : ∀ i, ReadsOnly (g i)) {μ : ∀ i, σ i → C i → A i → Nat} (hμ : ∀ i, ShrinksFrom (g i) (μ i)) {τ : I → Type} {o : ∀ i, Obj (τ i) (C i) (R i)}
    (r : ∀ i, σ i → τ i → Prop) (h0 : ∀ i, r i (g i).init (o i).init)
    (hs : ∀ i s s' c x u, r i s u → (seqObj (g i)).step s c x s' → ∃ u', (o i).step u c x u' ∧ r i s' u') {N : Nat} (hN : ∀ t, N ≤ t → p.call (l t) = none)
    (ha : ∀ x, AReach (Many.family o) p l x → Acc (fun b a => ∃ t, AStep (Many.family o) p t a b) x) (h : Many.MReach g p l s) :
    Acc (fun s' s => Many.MStep g p s s') s := by
  obtain ⟨m, h1, h2⟩ := C173_atomic ro r h0 hs h
  exact Many.ends ro hμ hN h (acc_sim (o := Many.family fun i => seqObj (g i)) (o' := Many.family o) (fun m u => ∀ i, r i (m i) (u i))
    (fun m m' c x u hm st => Many.family_sim r hs m m' c x u hm st) (a := (m, _)) h2 (ha _ h1))

end

/-! ## The workers -/

variable {K V : Type} [Inhabited K] [Inhabited V] {h : Go.Hp K} {eq : K → K → Bool} {f : K → V} {l : Nat → Worker K} {s : St K V} {N : Nat}

/-- **C173, the workers, at any moment.** The map has been filled by one `Set` each for some of the jobs. Those and the ones in the stack are no more than
all jobs: none is done twice, none is in the stack when it is done. -/
theorem C173_safe (pe : PartialEq eq) (hN : ∀ t, N ≤ t → l t = .stop) (hl : ∀ t, ∃ ks, l t = .feed ks ∨ l t = .stop)
    (hr : Many.MReach (objects h eq) (worker f) l s) :
    ∃ hist js x, (s.obj .results).m = run eq hist ∧ Stored f hist js ∧ SliceC.Rep (s.obj .jobs).m x ∧ js + (x : Multiset K) ≤ allJobs N l := by
  obtain ⟨m, h1, h2⟩ := C173_atomic readsOnly (Agree eq) init_agree (sim pe) hr
  obtain ⟨⟨js, h3, h4⟩, -⟩ := books hN hl h1
  refine ⟨m .results, js, (m .jobs).reverse, h2 .results, h3, h2 .jobs, ?_⟩
  rw [← h4, Multiset.coe_reverse]
  exact le_self_add

/-- **C173, the workers end**, whatever the schedule. -/
theorem C173_worker_ends (pe : PartialEq eq) (hN : ∀ t, N ≤ t → l t = .stop) (hr : Many.MReach (objects h eq) (worker f) l s) :
    Acc (fun s' s => Many.MStep (objects h eq) (worker f) s s') s :=
  C173_ends readsOnly shrinks (Agree eq) init_agree (sim pe) (fun t ht => by rw [hN t ht]; rfl) (fun _ hx => whole_ends hN hx) hr

/-- **C173, all the work is done.** When nobody can go on all goroutines have stopped, the stack is empty, and the map has been filled by exactly one `Set`
for each job of each goroutine. -/
theorem C173_done (pe : PartialEq eq) (hN : ∀ t, N ≤ t → l t = .stop) (hl : ∀ t, ∃ ks, l t = .feed ks ∨ l t = .stop)
    (hr : Many.MReach (objects h eq) (worker f) l s) (hn : ¬ ∃ s', Many.MStep (objects h eq) (worker f) s s') :
    (∀ t, s.loc t = .stop) ∧ SliceC.Rep (s.obj .jobs).m [] ∧ ∃ hist, (s.obj .results).m = run eq hist ∧ Stored f hist (allJobs N l) := by
  have hst := C173_stuck readsOnly live hr hn
  have e1 : ∀ t, s.loc t = .stop := by
    intro t
    have := (hst t).2
    generalize s.loc t = q at this
    match q with
    | .stop => rfl
    | .store _ => cases this
    | .feed [] => cases this
    | .feed (_ :: _) => cases this
  have e2 : ∀ t, Many.look (worker f) s t = .stop := fun t => by rw [Many.look_idle (hst t).1, e1 t]
  obtain ⟨m, h1, h2⟩ := C173_atomic readsOnly (Agree eq) init_agree (sim pe) hr
  obtain ⟨⟨js, h3, h4⟩, h5⟩ := books hN hl h1
  have e3 : m .jobs = [] := by
    by_contra hx
    obtain ⟨t, ht⟩ := h5 hx
    exact ht (e2 t)
  have h6 := h2 .jobs
  rw [e3] at h6
  refine ⟨e1, h6, m .results, h2 .results, ?_⟩
  have e4 : ∑ t ∈ Finset.range N, (Many.look (worker f) s t).own = 0 := Finset.sum_eq_zero fun t _ => by rw [e2 t]; rfl
  rw [← h4]
  simp only
  rw [e3, e4]
  simpa using h3

/-- **C173, what is in the map then**: under every key that equals a job the result for it, and nothing under any other. -/
theorem C173_found (pe : PartialEq eq) (resp : ∀ a b, eq a b = true → f a = f b) (hN : ∀ t, N ≤ t → l t = .stop) (hl : ∀ t, ∃ ks, l t = .feed ks ∨ l t = .stop)
    (hr : Many.MReach (objects h eq) (worker f) l s) (hn : ¬ ∃ s', Many.MStep (objects h eq) (worker f) s s') (k : K) :
    (∀ t < N, ∀ ks, l t = .feed ks → ∀ j ∈ ks, eq k j = true → find eq (s.obj .results).m k = some (f k)) ∧
    ((∀ t < N, ∀ ks, l t = .feed ks → ∀ j ∈ ks, eq k j = false) → find eq (s.obj .results).m k = none) := by
  obtain ⟨-, -, hist, e, hs⟩ := C173_done pe hN hl hr hn
  rw [e, SyncKey.find_lookup pe]
  obtain ⟨h1, h2⟩ := stored_lookup resp hs k
  refine ⟨fun t ht ks hk j hj => h1 j (Multiset.mem_sum.2 ⟨t, Finset.mem_range.2 ht, ?_⟩), fun hno => h2 fun j hj => ?_⟩
  · rw [hk]; exact hj
  · obtain ⟨t, ht, hm⟩ := Multiset.mem_sum.1 hj
    obtain ⟨ks, hk | hk⟩ := hl t
    · rw [hk] at hm; exact hno t (Finset.mem_range.1 ht) ks hk j hm
    · rw [hk] at hm; simp [Worker.jobs] at hm

/-- **C173**: such an end is reached from wherever the goroutines are. -/
theorem C173_reached (pe : PartialEq eq) (hN : ∀ t, N ≤ t → l t = .stop) (hr : Many.MReach (objects h eq) (worker f) l s) :
    ∃ s', ReflTransGen (Many.MStep (objects h eq) (worker f)) s s' ∧ Many.MReach (objects h eq) (worker f) l s' ∧
      ¬ ∃ s'', Many.MStep (objects h eq) (worker f) s' s'' := by
  have ha := C173_worker_ends pe hN hr
  induction ha with
  | intro s _ ih =>
    by_cases hn : ∃ s', Many.MStep (objects h eq) (worker f) s s'
    · obtain ⟨s', st⟩ := hn
      obtain ⟨z, h1, h2, h3⟩ := ih s' st (hr.step st)
      exact ⟨z, .head st h1, h2, h3⟩
    · exact ⟨s, .refl, hr, hn⟩

/-! ## Cases -/

theorem natEq : PartialEq (fun a b : Nat => decide (a = b)) := ⟨fun h => by simp_all, fun h1 h2 => by simp_all⟩

/-- Three goroutines, one with the jobs 1 and 2, one with 3, one with none: they come to an end, and then the map has the squares of the three. -/
example (h : Go.Hp Nat) : ∃ s : St Nat Nat, Many.MReach (objects h fun a b => decide (a = b)) (worker fun k => k * k)
      (fun t => if t = 0 then .feed [1, 2] else if t = 1 then .feed [3] else if t = 2 then .feed [] else .stop) s ∧
    (¬ ∃ s', Many.MStep (objects h fun a b => decide (a = b)) (worker fun k => k * k) s s') ∧
    find (fun a b => decide (a = b)) (s.obj .results).m 2 = some 4 ∧ find (fun a b => decide (a = b)) (s.obj .results).m 3 = some 9 ∧
    find (fun a b => decide (a = b)) (s.obj .results).m 4 = none := by
  have hN : ∀ t, 3 ≤ t → (if t = 0 then .feed [1, 2] else if t = 1 then .feed [3] else if t = 2 then .feed [] else .stop : Worker Nat) = .stop := by
    intro t ht; rw [if_neg (by omega), if_neg (by omega), if_neg (by omega)]
  have hl : ∀ t : Nat, ∃ ks, (if t = 0 then .feed [1, 2] else if t = 1 then .feed [3] else if t = 2 then .feed [] else .stop : Worker Nat) = .feed ks ∨
      (if t = 0 then .feed [1, 2] else if t = 1 then .feed [3] else if t = 2 then .feed [] else .stop : Worker Nat) = .stop := by
    intro t
    by_cases h0 : t = 0
    · exact ⟨[1, 2], .inl (if_pos h0)⟩
    by_cases h1 : t = 1
    · exact ⟨[3], .inl (by rw [if_neg h0, if_pos h1])⟩
    by_cases h2 : t = 2
    · exact ⟨[], .inl (by rw [if_neg h0, if_neg h1, if_pos h2])⟩
    · exact ⟨[], .inr (by rw [if_neg h0, if_neg h1, if_neg h2])⟩
  obtain ⟨s, -, hr, hn⟩ := C173_reached (h := h) (f := fun k => k * k) natEq hN .start
  have hf := C173_found natEq (fun a b e => by simp_all) hN hl hr hn
  refine ⟨s, hr, hn, (hf 2).1 0 (by omega) [1, 2] rfl 2 (by simp) (by simp), (hf 3).1 1 (by omega) [3] rfl 3 (by simp) (by simp), (hf 4).2 fun t ht ks hk j hj => ?_⟩
  have : t = 0 ∨ t = 1 ∨ t = 2 := by omega
  rcases this with rfl | rfl | rfl
  · cases hk; simp at hj; rcases hj with rfl | rfl <;> simp
  · cases hk; simp at hj; subst hj; simp
  · cases hk; simp at hj

/-- One goroutine can be in a call on the map while another is in one on the stack. -/
example (h : Go.Hp Nat) : ∃ s : St Nat Nat, Many.MReach (objects h fun a b => decide (a = b)) (worker fun k => k * k)
      (fun t => if t = 0 then .store 5 else if t = 1 then .feed [6] else .stop) s ∧
    Accessing (s.obj .results) 0 (.set 5 25) ∧ Accessing (s.obj .jobs) 1 (.push 6) := by
  have h1 := (Many.MReach.start (g := objects h fun a b => decide (a = b)) (p := worker fun k => k * k)
    (l := fun t => if t = 0 then .store 5 else if t = 1 then .feed [6] else .stop)).step
    (.invoke (t := 0) (i := .results) (c := .set 5 25) (fun _ => rfl) rfl)
  have h2 := h1.step (.inner (i := .results) (.lock (t := 0) (id := 0) (c := .set 5 25) rfl rfl rfl rfl) rfl)
  have h3 := h2.step (.invoke (t := 1) (i := .jobs) (c := .push 6) (fun i => by cases i <;> rfl) rfl)
  have h4 := h3.step (.inner (i := .jobs) (.lock (t := 1) (id := 0) (c := .push 6) rfl rfl rfl rfl) rfl)
  exact ⟨_, h4, ⟨0, [], rfl⟩, ⟨0, (), rfl⟩⟩

end Verif.WorkMap
