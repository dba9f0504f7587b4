import Verif.KillMany.Lemmas
/-!
# C145: kill handlers that wait for each other
-/
namespace Verif.KillMany

variable {n : Nat} {deps : Nat → List Nat} {s : St}

/-- The handlers can be put in an order in which each waits only for earlier ones. -/
def Ordered (n : Nat) (deps : Nat → List Nat) : Prop := ∃ rank : Nat → Nat, ∀ i < n, ∀ j ∈ deps i, j < n ∧ rank j < rank i

/-- **C145.** A channel is closed only after its handler has returned, and with it all channels this handler waited for, whatever
the handlers wait for and however many signals come. -/
theorem C145_order (r : Reach n deps s) {i : Nat} (h : s.closed i = true) :
    1 ≤ s.runs i ∧ ∀ j ∈ deps i, s.closed j = true ∧ 1 ≤ s.runs j := by
  have inv := inv_reach r
  have h1 := inv.closed i h
  exact ⟨h1, fun j hj => ⟨(inv.ran i (.inl h1)).2 j hj, inv.closed j ((inv.ran i (.inl h1)).2 j hj)⟩⟩

/-- With one signal nothing is closed twice and no handler runs twice. -/
theorem C145_once (r : Reach n deps s) (h : s.signals ≤ 1) : s.crashed = false ∧ ∀ i, s.runs i ≤ 1 :=
  ⟨(one_reach r h).crash, (one_reach r h).le⟩

/-- Between signals only finitely many steps can be made. -/
theorem C145_ends (r : Reach n deps s) : ¬ ∃ f : Nat → St, f 0 = s ∧ ∀ m, Quiet deps (f m) (f (m + 1)) := by
  rintro ⟨f, rfl, hf⟩
  have all : ∀ m, Reach n deps (f m) := fun m => by
    induction m with
    | zero => exact r
    | succ m ih => exact ih.step (.quiet (hf m))
  have bound : ∀ m, total n deps (f m) + m ≤ total n deps (f 0) := fun m => by
    induction m with
    | zero => omega
    | succ m ih => have := total_quiet (inv_reach (all m)) (hf m); omega
  have := bound (total n deps (f 0) + 1)
  omega

/-- When the steps have come to their end after the signal, every handler has run once and every channel is closed, if the handlers
can be put in an order. -/
theorem C145_all_closed (o : Ordered n deps) (r : Reach n deps s) (h1 : s.signals = 1) (st : Stuck deps s) :
    ∀ i < n, s.runs i = 1 ∧ s.closed i = true := by
  obtain ⟨rank, hr⟩ := o
  have one := one_reach r (by omega)
  have inv := inv_reach r
  obtain ⟨hd, hs⟩ := stuck_pc one.crash st
  have key : ∀ N i, rank i = N → i < n → s.closed i = true := by
    intro N
    induction N using Nat.strongRecOn with
    | _ N ih =>
      intro i hN hi
      rcases hs i with ⟨hp, hf⟩ | ⟨j, l, hp, hj⟩
      · rcases told r (by omega) i hi with h | h | h | h
        · rw [hd] at h; cases h
        · rw [hf] at h; cases h
        · exact absurd hp h
        · exact h
      · obtain ⟨p, e, _⟩ := inv.got i _ hp
        obtain ⟨hjn, hjr⟩ := hr i hi j (by rw [e]; simp)
        rw [ih (rank j) (by omega) j rfl hjn] at hj
        cases hj
  intro i hi
  have hc := key _ i rfl hi
  have := inv.closed i hc
  have := one.le i
  exact ⟨by omega, hc⟩

/-- So after the signal every schedule that goes on as long as it can closes all channels; there are such schedules from everywhere. -/
theorem C145_reached (o : Ordered n deps) (r : Reach n deps s) (h1 : s.signals = 1) :
    ∃ s', Relation.ReflTransGen (Quiet deps) s s' ∧ Stuck deps s' ∧ ∀ i < n, s'.runs i = 1 ∧ s'.closed i = true := by
  obtain ⟨s', a, b, c⟩ := to_stuck r
  have e : s'.signals = s.signals := by
    clear b c
    induction a with
    | refl => rfl
    | tail _ st ih => rw [quiet_signals st, ih]
  exact ⟨s', a, c, C145_all_closed o b (by omega) c⟩

/-- The channels were closed in an order. -/
theorem ranked (r : Reach n deps s) :
    ∃ (rank : Nat → Nat) (N : Nat), ∀ i, s.closed i = true → rank i < N ∧ ∀ j ∈ deps i, s.closed j = true ∧ rank j < rank i := by
  induction r with
  | init => exact ⟨fun _ => 0, 0, by simp [init]⟩
  | @step s s' r st ih =>
    obtain ⟨rank, N, h⟩ := ih
    cases st with
    | signal => exact ⟨rank, N, h⟩
    | quiet st =>
      cases st with
      | @close i hc hp hcl =>
        have mono : ∀ j, s.closed j = true → upd s.closed i true j = true ∧ upd rank i N j = rank j := by
          intro j hj
          have : j ≠ i := by rintro rfl; rw [hj] at hcl; cases hcl
          rw [upd_ne _ _ this, upd_ne _ _ this]; exact ⟨hj, rfl⟩
        refine ⟨upd rank i N, N + 1, fun j hj => ?_⟩
        by_cases e : j = i
        · subst e
          rw [upd_same]
          refine ⟨by omega, fun x hx => ?_⟩
          have hx' := ((inv_reach r).ran j (.inr hp)).2 x hx
          rw [(mono x hx').2]
          exact ⟨(mono x hx').1, (h x hx').1⟩
        · simp only [upd_ne _ _ e] at hj ⊢
          refine ⟨by have := (h j hj).1; omega, fun x hx => ?_⟩
          obtain ⟨a, b⟩ := (h j hj).2 x hx
          rw [(mono x a).2]
          exact ⟨(mono x a).1, b⟩
      | send => exact ⟨rank, N, h⟩
      | take => exact ⟨rank, N, h⟩
      | await => exact ⟨rank, N, h⟩
      | handled => exact ⟨rank, N, h⟩
      | closeCrash => exact ⟨rank, N, h⟩

/-- Handlers that wait for each other in a circle, or for a channel nobody closes, never return, however many signals come. -/
theorem C145_circle (S : Nat → Prop) (hS : ∀ i, S i → ∃ j ∈ deps i, S j ∨ n ≤ j) (r : Reach n deps s) {i : Nat} (hi : S i) :
    s.closed i = false ∧ s.runs i = 0 := by
  obtain ⟨rank, N, h⟩ := ranked r
  have inv := inv_reach r
  have key : ∀ M i, rank i = M → S i → s.closed i = false := by
    intro M
    induction M using Nat.strongRecOn with
    | _ M ih =>
      intro i hM hi
      by_contra hc
      have hc : s.closed i = true := by simpa using hc
      obtain ⟨j, hj, hj'⟩ := hS i hi
      obtain ⟨a, b⟩ := (h i hc).2 j hj
      rcases hj' with hj' | hj'
      · rw [ih _ (by omega) j rfl hj'] at a; cases a
      · rw [(inv.idle j hj').2.2] at a; cases a
  have hc := key _ i rfl hi
  refine ⟨hc, ?_⟩
  by_contra hr
  obtain ⟨j, hj, hj'⟩ := hS i hi
  have a := (inv.ran i (.inl (by omega))).2 j hj
  rcases hj' with hj' | hj'
  · rw [key _ j rfl hj'] at a; cases a
  · rw [(inv.idle j hj').2.2] at a; cases a

/-- All channels can get closed exactly if the handlers can be put in an order. -/
theorem C145_exactly : (∃ s, Reach n deps s ∧ ∀ i < n, s.closed i = true) ↔ Ordered n deps := by
  constructor
  · rintro ⟨s, r, h⟩
    obtain ⟨rank, N, hr⟩ := ranked r
    refine ⟨rank, fun i hi j hj => ⟨?_, ((hr i (h i hi)).2 j hj).2⟩⟩
    by_contra hn
    have := ((hr i (h i hi)).2 j hj).1
    rw [((inv_reach r).idle j (by omega)).2.2] at this
    cases this
  · intro o
    have r := Reach.init.step (n := n) (deps := deps) (.signal rfl rfl)
    obtain ⟨s', a, -, c⟩ := C145_reached o r rfl
    refine ⟨s', ?_, fun i hi => (c i hi).2⟩
    clear c
    induction a with
    | refl => exact r
    | tail _ st ih => exact ih.step (.quiet st)

/-- One signal is all there may be: when everything is closed, a second one makes the program crash, in every schedule that goes on as
long as it can. -/
theorem C145_second (hn : 0 < n) (o : Ordered n deps) (r : Reach n deps s) (h1 : s.signals = 1) (st : Stuck deps s) {s' : St}
    (hs : Relation.ReflTransGen (Quiet deps) { s with due := List.range n, signals := 2 } s') (st' : Stuck deps s') :
    s'.crashed = true := by
  have one := one_reach r (by omega)
  obtain ⟨hd, hw⟩ := stuck_pc one.crash st
  have cl := C145_all_closed o r h1 st
  obtain ⟨rank, hr⟩ := o
  have r1 : Reach n deps { s with due := List.range n, signals := 2 } := by
    have := r.step (.signal one.crash hd)
    rwa [h1] at this
  have key : Reach n deps s' ∧ (∀ i < n, s'.closed i = true) ∧
      (s'.crashed = true ∨ ∃ i < n, i ∈ s'.due ∨ s'.full i = true ∨ s'.pc i ≠ .wait) := by
    clear st'
    induction hs with
    | refl => exact ⟨r1, fun i hi => (cl i hi).2, .inr ⟨0, hn, .inl (by simpa using hn)⟩⟩
    | @tail x y _ q ih =>
      obtain ⟨rx, hc, hx⟩ := ih
      have hc' : x.crashed = false := by cases q <;> assumption
      rcases hx with hx | ⟨i, hi, hx⟩
      · rw [hc'] at hx; cases hx
      refine ⟨rx.step (.quiet q), ?_⟩
      cases q with
      | @send j _ hj =>
        refine ⟨hc, .inr ⟨i, hi, ?_⟩⟩
        by_cases e : i = j
        · subst e; exact .inr (.inl (by simp))
        · simp only [upd_ne _ _ e, List.mem_erase_of_ne e]; exact hx
      | @take j _ hp hf =>
        refine ⟨hc, .inr ⟨i, hi, ?_⟩⟩
        by_cases e : i = j
        · subst e; exact .inr (.inr (by simp))
        · simp only [upd_ne _ _ e]; exact hx
      | @await j k l _ hp hk =>
        refine ⟨hc, .inr ⟨i, hi, ?_⟩⟩
        by_cases e : i = j
        · subst e; exact .inr (.inr (by simp))
        · simp only [upd_ne _ _ e]; exact hx
      | @handled j _ hp =>
        refine ⟨hc, .inr ⟨i, hi, ?_⟩⟩
        by_cases e : i = j
        · subst e; exact .inr (.inr (by simp))
        · simp only [upd_ne _ _ e]; exact hx
      | @close j _ hp hcl =>
        by_cases hj : j < n
        · rw [hc j hj] at hcl; cases hcl
        · rw [((inv_reach rx).idle j (by omega)).2.1] at hp; cases hp
      | closeCrash => exact ⟨hc, .inl rfl⟩
  obtain ⟨r', hc, hx⟩ := key
  by_contra hcr
  have hcr : s'.crashed = false := by simpa using hcr
  obtain ⟨hd', hw'⟩ := stuck_pc hcr st'
  rcases hx with hx | ⟨i, hi, hx⟩
  · rw [hcr] at hx; cases hx
  · rcases hw' i with ⟨a, b⟩ | ⟨j, l, hp, hj⟩
    · rw [hd', a, b] at hx; simp at hx
    · obtain ⟨p, e, _⟩ := (inv_reach r').got i _ hp
      rw [hc j (hr i hi j (by rw [e]; simp)).1] at hj
      cases hj

/-- Three registrations: the database waits for the two servers. -/
example : Ordered 3 (fun i => if i = 2 then [0, 1] else []) :=
  ⟨fun i => i, fun i hi j hj => by
    simp only at hj
    split at hj
    · subst_vars; simp at hj ⊢; omega
    · cases hj⟩

/-- Two that wait for each other cannot be put in an order, and never return. -/
example : ¬ Ordered 2 (fun i => [1 - i]) ∧ ∀ s, Reach 2 (fun i => [1 - i]) s → s.closed 0 = false :=
  ⟨fun ⟨rank, h⟩ => by
    have h0 := (h 0 (by omega) 1 (by simp)).2
    have h1 := (h 1 (by omega) 0 (by simp)).2
    omega,
   fun s r => (C145_circle (fun i => i = 0 ∨ i = 1) (fun i hi => ⟨1 - i, by simp, by omega⟩) r (.inl rfl)).1⟩

/-- A state after one signal with both channels closed, the second after the first. -/
example : ∃ s, Reach 2 (fun i => if i = 1 then [0] else []) s ∧ s.signals = 1 ∧ s.closed 0 = true ∧ s.closed 1 = true := by
  have o : Ordered 2 (fun i => if i = 1 then [0] else []) := ⟨fun i => i, fun i hi j hj => by
    simp only at hj
    split at hj
    · subst_vars; simp at hj ⊢; omega
    · cases hj⟩
  have r := Reach.init.step (n := 2) (deps := fun i => if i = 1 then [0] else []) (.signal rfl rfl)
  obtain ⟨s', a, b, c⟩ := to_stuck r
  have e : s'.signals = 1 := by
    clear b c
    induction a with
    | refl => rfl
    | tail _ st ih => rw [quiet_signals st, ih]
  exact ⟨s', b, e, (C145_all_closed o b e c 0 (by omega)).2, (C145_all_closed o b e c 1 (by omega)).2⟩

end Verif.KillMany
