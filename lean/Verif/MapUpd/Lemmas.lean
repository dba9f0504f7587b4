import Verif.MapUpd.Spec
import Verif.Conc.Prod
/-!
# What a goroutine has read is still there when it writes
-/
namespace Verif.MapUpd

@[simp] theorem upd_same {α β : Type} [DecidableEq α] (f : α → β) (i : α) (b : β) : upd f i b i = b := if_pos rfl
theorem upd_ne {α β : Type} [DecidableEq α] (f : α → β) {i k : α} (b : β) (h : k ≠ i) : upd f i b k = f k := if_neg h

section
variable {K V : Type} [DecidableEq K] [Inhabited V]

/-- The value a goroutine has read and not yet replaced. -/
def Pc.val : Pc V → Option V
  | .read v => some v
  | .got v => some v
  | .set v => some v
  | _ => none

/-- The updates that have not been written. -/
def Th.left (h : Th K V) : List (Job K V) :=
  match h.pc with
  | .wrote => h.jobs.tail
  | .fin => h.jobs.tail
  | _ => h.jobs

/-- Who holds which lock, and that there is a current update. -/
structure Locks (locked : Bool) (s : St K V) : Prop where
  rd : ∀ t, s.rd t = true ↔ ((s.thr t).pc = .get ∨ ∃ v, (s.thr t).pc = .read v)
  wr : ∀ t, s.wr = some t ↔ ((s.thr t).pc = .wrote ∨ ∃ v, (s.thr t).pc = .set v)
  mu : locked = true → ∀ t, s.mu = some t ↔ (s.thr t).pc ≠ .idle
  cur : ∀ t, (s.thr t).pc ≠ .idle → (s.thr t).jobs ≠ []
  excl : s.wr ≠ none → ∀ u, s.rd u = false

theorem locks_start (locked : Bool) (m : K → Option V) (prog : Nat → List (Job K V)) : Locks locked (start m prog) :=
  ⟨fun t => by simp [start], fun t => by simp [start], fun _ t => by simp [start], fun t h => absurd rfl h, fun _ _ => rfl⟩

theorem locks_step {locked : Bool} {t : Nat} {s s' : St K V} (h : Locks locked s) (hs : Step locked t s s') : Locks locked s' := by
  have r := h.rd; have w := h.wr; have m := h.mu; have c := h.cur; have x := h.excl
  have rt := r t; have wt := w t; have ct := c t
  cases hs
  all_goals refine ⟨fun u => ?_, fun u => ?_, fun hl u => ?_, fun u => ?_, fun hx u => ?_⟩
  all_goals have ru := r u; have wu := w u; have cu := c u
  all_goals try (have mu := m hl u)
  all_goals by_cases eu : u = t
  all_goals first | subst eu | (have eu' : ¬ t = u := fun e => eu e.symm)
  all_goals clear r w c
  all_goals try (have mt := m hl t)
  all_goals clear m
  all_goals simp_all [upd]

theorem locks_reach {locked : Bool} {m : K → Option V} {prog : Nat → List (Job K V)} {s : St K V} (h : Reach locked m prog s) : Locks locked s := by
  induction h with
  | start => exact locks_start locked m prog
  | step _ hs ih => exact locks_step ih hs

/-! ## The order of the writes -/

/-- The writes so far, after a step of goroutine `t`. -/
def logNext (t : Nat) (s : St K V) (L : List (Nat × Job K V)) : List (Nat × Job K V) :=
  match s.thr t with
  | ⟨j :: _, .set _⟩ => L ++ [(t, j)]
  | _ => L

/-- What is reached, with the writes on the way. -/
inductive LReach (locked : Bool) (m : K → Option V) (prog : Nat → List (Job K V)) : St K V → List (Nat × Job K V) → Prop where
  | start : LReach locked m prog (start m prog) []
  | step {s s' t L} : LReach locked m prog s L → Step locked t s s' → LReach locked m prog s' (logNext t s L)

theorem lreach {locked : Bool} {m : K → Option V} {prog : Nat → List (Job K V)} {s : St K V} (h : Reach locked m prog s) :
    ∃ L, LReach locked m prog s L := by
  induction h with
  | start => exact ⟨_, .start⟩
  | step _ hs ih => exact ⟨_, ih.choose_spec.step hs⟩

theorem LReach.reach {locked : Bool} {m : K → Option V} {prog : Nat → List (Job K V)} {s : St K V} {L : List (Nat × Job K V)}
    (h : LReach locked m prog s L) : Reach locked m prog s := by
  induction h with
  | start => exact .start
  | step _ hs ih => exact ih.step hs

theorem logOf_snoc (L : List (Nat × Job K V)) (t u : Nat) (j : Job K V) :
    logOf (L ++ [(t, j)]) u = if t = u then logOf L u ++ [j] else logOf L u := by
  unfold logOf
  by_cases e : t = u <;> simp [e]

theorem log_left {locked : Bool} {m : K → Option V} {prog : Nat → List (Job K V)} {s : St K V} {L : List (Nat × Job K V)}
    (h : LReach locked m prog s L) : ∀ t, logOf L t ++ (s.thr t).left = prog t := by
  induction h with
  | start => intro t; rfl
  | @step s s' t L _ hs ih =>
    intro u
    have hu := ih u
    by_cases eu : u = t
    · subst eu
      cases hs
      all_goals rename_i e _; simp_all [logNext, Th.left, logOf_snoc]
    · have eu' : ¬ t = u := fun e => eu e.symm
      cases hs
      all_goals rename_i e _; simp_all [logNext, logOf_snoc, upd]

/-- What goroutines have read of the entry of `k` is still there. -/
def Fresh (k : K) (s : St K V) : Prop := ∀ t v j js, (s.thr t).pc.val = some v → (s.thr t).jobs = j :: js → j.key = k →
  v = (s.m k).getD default

/-- Nobody else has read the entry of `k` when a goroutine is about to write it. -/
def Alone (k : K) (s : St K V) : Prop := ∀ t u j js i is v w, t ≠ u → s.thr t = ⟨j :: js, .set v⟩ → (s.thr u).pc.val = some w →
  (s.thr u).jobs = i :: is → j.key = k → i.key ≠ k

theorem alone_locked {s : St K V} (h : Locks true s) (k : K) : Alone k s := by
  intro t u j js i is v w htu et hu _ _
  have h1 := (h.mu rfl t).2 (by rw [et]; exact fun x => nomatch x)
  have h2 := (h.mu rfl u).2 (fun e => by rw [e] at hu; cases hu)
  exact absurd (Option.some.inj (h1.symm.trans h2)) htu

theorem mem_val {locked : Bool} {m : K → Option V} {prog : Nat → List (Job K V)} {s : St K V} {L : List (Nat × Job K V)}
    (h : LReach locked m prog s L) {u : Nat} {w : V} {i : Job K V} {is : List (Job K V)} (hu : (s.thr u).pc.val = some w)
    (ei : (s.thr u).jobs = i :: is) : i ∈ prog u := by
  rw [← log_left h u]
  refine List.mem_append_right _ ?_
  unfold Th.left
  split
  · rename_i e; rw [e] at hu; cases hu
  · rename_i e; rw [e] at hu; cases hu
  · rw [ei]; exact List.mem_cons_self

theorem alone_own {locked : Bool} {m : K → Option V} {prog : Nat → List (Job K V)} {s : St K V} {L : List (Nat × Job K V)} {o : Nat} {k : K}
    (ho : Own prog o k) (h : LReach locked m prog s L) : Alone k s := by
  intro t u j js i is v w htu et hu ei ek ek'
  by_cases e : u = o
  · exact ho t (fun x => htu (x.trans e.symm)) j (mem_val h (by rw [et]; rfl) (by rw [et])) ek
  · exact ho u e i (mem_val h hu ei) ek'

theorem fresh_step {locked : Bool} {t : Nat} {k : K} {s s' : St K V} (hf : Fresh k s) (ha : Alone k s) (hs : Step locked t s s') :
    Fresh k s' := by
  intro u w i is hw hi ek
  have hu := hf u w i is
  by_cases eu : u = t
  · subst eu
    cases hs with
    | begin e => simp [Pc.val] at hw
    | rlock e => simp [Pc.val] at hw
    | @read j js e =>
      simp [Pc.val] at hw hi
      obtain ⟨rfl, rfl⟩ := hi
      subst ek
      exact hw.symm
    | runlock e => simp_all [Pc.val]
    | lock e => simp_all [Pc.val]
    | write e => simp [Pc.val] at hw
    | unlock e => simp [Pc.val] at hw
    | done e => simp [Pc.val] at hw
  · cases hs with
    | @write j js v e =>
      simp only [upd_ne _ _ eu] at hw hi ⊢
      have : k ≠ j.key := fun x => ha t u j js i is v w (fun x => eu x.symm) e hw hi x.symm ek
      rw [upd_ne _ _ this]
      exact hu hw hi ek
    | _ => simp only [upd_ne _ _ eu] at hw hi ⊢; exact hu hw hi ek

theorem applyAll_snoc (m : K → Option V) (L : List (Nat × Job K V)) (t : Nat) (j : Job K V) :
    applyAll m (L ++ [(t, j)]) = apply (applyAll m L) j := by
  unfold applyAll; rw [List.foldl_append]; rfl

theorem fresh_reach {locked : Bool} {m : K → Option V} {prog : Nat → List (Job K V)} {k : K}
    (ha : ∀ s L, LReach locked m prog s L → Alone k s) {s : St K V} {L : List (Nat × Job K V)} (h : LReach locked m prog s L) :
    Fresh k s ∧ s.m k = applyAll m L k := by
  induction h with
  | start => exact ⟨fun t v _ _ h => (by cases h), rfl⟩
  | @step s s' t L hr hs ih =>
    refine ⟨fresh_step ih.1 (ha _ _ hr) hs, ?_⟩
    have hm := ih.2
    cases hs with
    | @write j js v e =>
      have h2 := ih.1 t v j js (by rw [e]; rfl) (by rw [e])
      have : logNext t s L = L ++ [(t, j)] := by simp [logNext, e]
      rw [this, applyAll_snoc]
      unfold upd apply
      rw [← hm]
      by_cases ek : k = j.key
      · simp [ek, h2 ek.symm]
      · simp [ek]
    | _ => rename_i e _; simp_all [logNext]

theorem applyAll_entry (L : List (Nat × Job K V)) : ∀ (m : K → Option V) (k : K),
    applyAll m L k = entry (m k) ((L.filter (fun e => decide (e.2.key = k))).map (·.2)) := by
  induction L with
  | nil => intro m k; rfl
  | cons e L ih =>
    intro m k
    have h : applyAll m (e :: L) = applyAll (apply m e.2) L := rfl
    rw [h, ih]
    by_cases ek : e.2.key = k
    · rw [List.filter_cons_of_pos (by simpa using ek)]
      simp [entry, apply, ek.symm]
    · rw [List.filter_cons_of_neg (by simpa using ek)]
      have : ¬ k = e.2.key := fun x => ek x.symm
      simp [apply, this]

/-- When only goroutine `o` has updated the key, its updates of it in the log are all there are. -/
theorem log_own {L : List (Nat × Job K V)} {o : Nat} {k : K} (h : ∀ e ∈ L, e.2.key = k → e.1 = o) :
    (L.filter (fun e => decide (e.2.key = k))).map (·.2) = (logOf L o).filter (fun j => decide (j.key = k)) := by
  induction L with
  | nil => rfl
  | cons e L ih =>
    have ih := ih (fun e he => h e (List.mem_cons_of_mem _ he))
    unfold logOf at ih ⊢
    have he := h e List.mem_cons_self
    by_cases h1 : e.2.key = k <;> by_cases h2 : e.1 = o <;> simp_all

theorem mem_logOf {L : List (Nat × Job K V)} {e : Nat × Job K V} (h : e ∈ L) : e.2 ∈ logOf L e.1 :=
  List.mem_map.2 ⟨e, List.mem_filter.2 ⟨h, by simp⟩, rfl⟩

/-! ## Counting -/

theorem hits_snoc (L : List (Nat × Job K V)) (t : Nat) (j : Job K V) (k : K) :
    hits (L ++ [(t, j)]) k = hits L k + if j.key = k then 1 else 0 := by
  unfold hits
  by_cases e : j.key = k <;> simp [e]

theorem mem_prog {locked : Bool} {m : K → Option V} {prog : Nat → List (Job K V)} {s : St K V} {L : List (Nat × Job K V)}
    (h : LReach locked m prog s L) {t : Nat} {j : Job K V} {js : List (Job K V)} {v : V} (e : s.thr t = ⟨j :: js, .set v⟩) : j ∈ prog t := by
  rw [← log_left h t, e]; simp [Th.left]

end

section
variable {K : Type} [DecidableEq K]

/-- What is counted so far, and what the goroutines have read. -/
structure CInv (m : K → Option Nat) (s : St K Nat) (L : List (Nat × Job K Nat)) : Prop where
  hi : ∀ k, (s.m k).getD 0 ≤ (m k).getD 0 + hits L k
  lo : ∀ k, 0 < hits L k → (m k).getD 0 + 1 ≤ (s.m k).getD 0
  same : ∀ k, hits L k = 0 → s.m k = m k
  val : ∀ t v j js, (s.thr t).pc.val = some v → (s.thr t).jobs = j :: js → (m j.key).getD 0 ≤ v ∧ v ≤ (m j.key).getD 0 + hits L j.key

theorem cinv_reach {locked : Bool} {m : K → Option Nat} {prog : Nat → List (Job K Nat)} (hp : ∀ t, ∀ j ∈ prog t, j.f = (· + 1))
    {s : St K Nat} {L : List (Nat × Job K Nat)} (h : LReach locked m prog s L) : CInv m s L := by
  induction h with
  | start => exact ⟨fun k => Nat.le_refl _, fun k h => absurd h (by simp [hits]), fun k _ => rfl, fun t v j js h => by cases h⟩
  | @step s s' t L hr hs ih =>
    have ho : ∀ k, (m k).getD 0 ≤ (s.m k).getD 0 := fun k => by
      rcases Nat.eq_zero_or_pos (hits L k) with h | h
      · rw [ih.same k h]
      · have := ih.lo k h; omega
    cases hs with
    | @write j js v e =>
      have hl : logNext t s L = L ++ [(t, j)] := by simp [logNext, e]
      have hj : j.f v = v + 1 := by rw [hp t j (mem_prog hr e)]
      have hv := ih.val t v j js (by rw [e]; rfl) (by rw [e])
      rw [hl]
      refine ⟨fun k => ?_, fun k hk => ?_, fun k hk => ?_, fun u w i is hw hi => ?_⟩
      · have h1 := ih.hi k
        rw [hits_snoc]
        unfold upd
        by_cases ek : k = j.key
        · subst ek; simp [hj]; omega
        · have : ¬ j.key = k := fun x => ek x.symm
          simp [ek, this]; omega
      · rw [hits_snoc] at hk
        unfold upd
        by_cases ek : k = j.key
        · subst ek; simp [hj]; omega
        · have ek' : ¬ j.key = k := fun x => ek x.symm
          simp only [ek', if_false, Nat.add_zero] at hk
          simpa [ek] using ih.lo k hk
      · rw [hits_snoc] at hk
        have ek : k ≠ j.key := fun x => by rw [if_pos x.symm] at hk; omega
        exact (upd_ne s.m _ ek).trans (ih.same k (by omega))
      · by_cases eu : u = t
        · subst eu; simp [Pc.val] at hw
        · simp only [upd_ne _ _ eu] at hw hi
          have := ih.val u w i is hw hi
          rw [hits_snoc]
          omega
    | @read j js e =>
      have hl : logNext t s L = L := by simp [logNext, e]
      rw [hl]
      refine ⟨ih.hi, ih.lo, ih.same, fun u w i is hw hi => ?_⟩
      by_cases eu : u = t
      · subst eu
        simp [Pc.val] at hw hi
        obtain ⟨rfl, rfl⟩ := hi
        have h1 := ho j.key; have h2 := ih.hi j.key
        subst hw
        exact ⟨h1, h2⟩
      · simp only [upd_ne _ _ eu] at hw hi
        exact ih.val u w i is hw hi
    | _ =>
      rename_i e _
      have hl : logNext t s L = L := by simp_all [logNext]
      rw [hl]
      refine ⟨ih.hi, ih.lo, ih.same, fun u w i is hw hi => ?_⟩
      have h1 := ih.val u w i is
      by_cases eu : u = t
      · subst eu; simp_all [Pc.val]
      · simp only [upd_ne _ _ eu] at hw hi
        exact h1 hw hi

end

section
variable {K V : Type} [DecidableEq K] [Inhabited V]

/-! ## An end -/

/-- Steps left in an update. -/
def Pc.cost : Pc V → Nat
  | .idle => 0
  | .want => 7
  | .get => 6
  | .read _ => 5
  | .got _ => 4
  | .set _ => 3
  | .wrote => 2
  | .fin => 1

/-- Steps left, at most. -/
def Th.cost (h : Th K V) : Nat := match h.pc with
  | .idle => 8 * h.jobs.length
  | p => 8 * (h.jobs.length - 1) + p.cost

theorem cost_step {locked : Bool} {t : Nat} {s s' : St K V} (hk : Locks locked s) (hs : Step locked t s s') :
    (s'.thr t).cost < (s.thr t).cost ∧ ∀ u, u ≠ t → s'.thr u = s.thr u := by
  refine ⟨?_, fun u hu => by cases hs <;> exact upd_ne _ _ hu⟩
  cases hs
  all_goals rename_i e _; simp_all [Th.cost, Pc.cost]
  all_goals omega

end
end Verif.MapUpd
