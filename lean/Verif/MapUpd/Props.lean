import Verif.MapUpd.Lemmas
/-!
# C165: goroutines that update entries of a shared concurrent map
-/
namespace Verif.MapUpd

section
variable {K V : Type} [DecidableEq K] [Inhabited V]

/-! ## Without a mutex of the program -/

/-- Count one occurrence. -/
def count1 (k : K) : Job K Nat := ⟨k, (· + 1)⟩

/-- Two goroutines count the same key once each. -/
def twoCounts : Nat → List (Job Nat Nat)
  | 0 => [count1 7]
  | 1 => [count1 7]
  | _ => []

/-- Both call `Get` before either calls `Set`: the map is safe for concurrent use, and one count is lost. -/
theorem lost : ∃ s, Reach false (fun _ => none) twoCounts s ∧ Done s ∧ s.m 7 = some 1 := by
  have h := Reach.start (locked := false) (m := fun _ => none) (prog := twoCounts)
  replace h := h.step (t := 0) (.begin rfl (by simp))
  replace h := h.step (t := 1) (.begin rfl (by simp))
  replace h := h.step (t := 0) (.rlock rfl rfl)
  replace h := h.step (t := 1) (.rlock rfl rfl)
  replace h := h.step (t := 0) (.read rfl)
  replace h := h.step (t := 1) (.read rfl)
  replace h := h.step (t := 0) (.runlock rfl)
  replace h := h.step (t := 1) (.runlock rfl)
  replace h := h.step (t := 0) (.lock rfl rfl (fun u => by simp [upd, start]; intro h1 h2; simp [h1, h2]))
  replace h := h.step (t := 0) (.write rfl)
  replace h := h.step (t := 0) (.unlock rfl)
  replace h := h.step (t := 0) (.done rfl)
  replace h := h.step (t := 1) (.lock rfl rfl (fun u => by simp [upd, start]; intro h1 h2; simp [h1, h2]))
  replace h := h.step (t := 1) (.write rfl)
  replace h := h.step (t := 1) (.unlock rfl)
  replace h := h.step (t := 1) (.done rfl)
  refine ⟨_, h, fun t => ?_, rfl⟩
  match t with
  | 0 => rfl
  | 1 => rfl
  | t + 2 => rfl

/-- In a log of counts every count counts. -/
theorem applyAll_count {m : K → Option Nat} {L : List (Nat × Job K Nat)} (h : ∀ e ∈ L, e.2.f = (· + 1)) (k : K) :
    (applyAll m L k).getD 0 = (m k).getD 0 + hits L k := by
  induction L generalizing m with
  | nil => rfl
  | cons e L ih =>
    have h1 : applyAll m (e :: L) = applyAll (apply m e.2) L := rfl
    have h2 := h e List.mem_cons_self
    rw [h1, ih (fun e he => h e (List.mem_cons_of_mem _ he))]
    unfold hits apply
    by_cases ek : e.2.key = k
    · simp [ek, h2]; omega
    · have : ¬ k = e.2.key := fun x => ek x.symm
      simp [ek, this]

/-- **C165, refuted.** Two goroutines count the same key once each, with `Get` and `Set`; when both are done the count is 1. -/
theorem C165_refuted : ¬ C165_full := by
  intro h
  obtain ⟨s, hs, hd, h7⟩ := lost
  obtain ⟨L, h1, h2⟩ := h Nat Nat false (fun _ => none) twoCounts s hs hd
  have hf : ∀ e ∈ L, e.2 = count1 7 := by
    intro e he
    have := mem_logOf he
    rw [h1] at this
    revert this
    match e.1 with
    | 0 => simp [twoCounts]
    | 1 => simp [twoCounts]
    | t + 2 => simp [twoCounts]
  have hc := applyAll_count (m := fun _ => none) (L := L) (fun e he => by rw [hf e he]; rfl) 7
  rw [← h2, h7] at hc
  have hall : hits L 7 = L.length := by
    unfold hits
    rw [List.filter_eq_self.2 (fun e he => by rw [hf e he]; rfl)]
  have hl : L.length = 1 := by rw [← hall]; simpa using hc.symm
  obtain ⟨e, rfl⟩ := List.length_eq_one_iff.1 hl
  have a := h1 0; have b := h1 1
  unfold logOf twoCounts at a b
  by_cases e0 : e.1 = 0
  · simp [e0] at b
  · simp [e0] at a

/-- **C165, own keys.** A key that only one goroutine updates needs no mutex, whatever the others do to theirs: its entry is what the updates
that the goroutine has made so far make of it, and all of them when that goroutine is done. -/
theorem C165_own_key {locked : Bool} {m : K → Option V} {prog : Nat → List (Job K V)} {t : Nat} {k : K} (ho : Own prog t k) {s : St K V}
    (h : Reach locked m prog s) :
    (∃ n, s.m k = entry (m k) (((prog t).take n).filter (fun j => decide (j.key = k)))) ∧
      (s.thr t = ⟨[], .idle⟩ → s.m k = entry (m k) ((prog t).filter (fun j => decide (j.key = k)))) := by
  obtain ⟨L, hL⟩ := lreach h
  have h1 := (fresh_reach (fun s L hl => alone_own ho hl) hL).2
  have hown : ∀ e ∈ L, e.2.key = k → e.1 = t := by
    intro e he ek
    by_contra hne
    refine ho e.1 hne e.2 ?_ ek
    rw [← log_left hL e.1]
    exact List.mem_append_left _ (mem_logOf he)
  rw [applyAll_entry, log_own hown] at h1
  have h2 := log_left hL t
  refine ⟨⟨(logOf L t).length, ?_⟩, fun e => ?_⟩
  · rw [h1, ← h2, List.take_left]
  · rw [h1, ← h2, e]; simp [Th.left]

/-- **C165, apart.** As long as no key is updated by two goroutines no update is lost. -/
theorem C165_partial {locked : Bool} {m : K → Option V} {prog : Nat → List (Job K V)} (ha : Apart prog) {s : St K V} (h : Reach locked m prog s)
    (hd : Done s) : Serial m prog s.m := by
  obtain ⟨L, hL⟩ := lreach h
  refine ⟨L, fun t => ?_, funext fun k => ?_⟩
  · have := log_left hL t
    rw [hd t] at this
    simpa [Th.left] using this
  · by_cases hk : ∃ t, ∃ j ∈ prog t, j.key = k
    · obtain ⟨t, j, hj, rfl⟩ := hk
      exact (fresh_reach (fun s L hl => alone_own (o := t) (fun u hu i hi => ha u t hu i hi j hj) hl) hL).2
    · exact (fresh_reach (fun s L hl => alone_own (o := 0) (fun u _ i hi ek => hk ⟨u, i, hi, ek⟩) hl) hL).2

/-- **C165, with a mutex.** When the program holds a mutex over every `Get` and the `Set` that follows no update is lost, whatever the keys. -/
theorem C165_locked {m : K → Option V} {prog : Nat → List (Job K V)} {s : St K V} (h : Reach true m prog s) (hd : Done s) : Serial m prog s.m := by
  obtain ⟨L, hL⟩ := lreach h
  refine ⟨L, fun t => ?_, funext fun k => ?_⟩
  · have := log_left hL t
    rw [hd t] at this
    simpa [Th.left] using this
  · exact (fresh_reach (fun s L hl => alone_locked (locks_reach hl.reach) k) hL).2

/-- **C165, what is left of a count.** Without a mutex, when all are done: a key that was counted has at least one count more than at the start
and at most all of them; the others are as they were. -/
theorem C165_count {locked : Bool} {m : K → Option Nat} {prog : Nat → List (Job K Nat)} (hp : ∀ t, ∀ j ∈ prog t, j.f = (· + 1))
    {s : St K Nat} (h : Reach locked m prog s) (hd : Done s) :
    ∃ log : List (Nat × Job K Nat), (∀ t, logOf log t = prog t) ∧ ∀ k,
      (hits log k = 0 → s.m k = m k) ∧ (0 < hits log k → (m k).getD 0 < (s.m k).getD 0) ∧ (s.m k).getD 0 ≤ (m k).getD 0 + hits log k := by
  obtain ⟨L, hL⟩ := lreach h
  have hc := cinv_reach hp hL
  refine ⟨L, fun t => ?_, fun k => ⟨hc.same k, hc.lo k, hc.hi k⟩⟩
  have := log_left hL t
  rw [hd t] at this
  simpa [Th.left] using this

/-- **C165, no race.** Nobody is at the Go map while another goroutine is about to write it. -/
theorem C165_no_race {locked : Bool} {m : K → Option V} {prog : Nat → List (Job K V)} {s : St K V} (h : Reach locked m prog s) {t u : Nat} {v : V}
    (htu : t ≠ u) (ht : (s.thr t).pc = .set v) : (s.thr u).pc ≠ .get ∧ ∀ w, (s.thr u).pc ≠ .set w := by
  have hk := locks_reach h
  have h1 := (hk.wr t).2 (.inr ⟨v, ht⟩)
  refine ⟨fun e => ?_, fun w e => ?_⟩
  · have h2 := (hk.rd u).2 (.inl e)
    have h3 := hk.excl (by rw [h1]; exact fun x => nomatch x) u
    rw [h2] at h3; cases h3
  · have h2 := (hk.wr u).2 (.inr ⟨w, e⟩)
    exact htu (Option.some.inj (h1.symm.trans h2))

/-- **C165, no deadlock.** As long as some goroutine is not done some goroutine can go on. -/
theorem C165_can_step {locked : Bool} {m : K → Option V} {prog : Nat → List (Job K V)} {s : St K V} (h : Reach locked m prog s) {t : Nat}
    (ht : s.thr t ≠ ⟨[], .idle⟩) : ∃ u s', Step locked u s s' := by
  have hk := locks_reach h
  have inside : ∀ u, (s.thr u).pc ≠ .idle → (s.thr u).pc ≠ .want → (∀ v, (s.thr u).pc ≠ .got v) → ∃ u s', Step locked u s s' := by
    intro u h1 h2 h3
    have hc := hk.cur u h1
    generalize e : s.thr u = q at *
    obtain ⟨_ | ⟨j, js⟩, pc⟩ := q
    · exact absurd rfl hc
    cases pc with
    | idle => exact absurd rfl h1
    | want => exact absurd rfl h2
    | get => exact ⟨u, _, .read e⟩
    | read v => exact ⟨u, _, .runlock e⟩
    | got v => exact absurd rfl (h3 v)
    | set v => exact ⟨u, _, .write e⟩
    | wrote => exact ⟨u, _, .unlock e⟩
    | fin => exact ⟨u, _, .done e⟩
  by_cases hw : s.wr = none
  · by_cases hr : ∃ u, s.rd u = true
    · obtain ⟨u, hu⟩ := hr
      rcases (hk.rd u).1 hu with e | ⟨v, e⟩
      · exact inside u (by rw [e]; nofun) (by rw [e]; nofun) (by rw [e]; nofun)
      · exact inside u (by rw [e]; nofun) (by rw [e]; nofun) (by rw [e]; nofun)
    · have hr : ∀ u, s.rd u = false := fun u => by
        cases e : s.rd u
        · rfl
        · exact absurd ⟨u, e⟩ hr
      have go : ∀ u, (s.thr u).pc ≠ .idle → ∃ u s', Step locked u s s' := by
        intro u h1
        by_cases h2 : (s.thr u).pc = .want
        · exact ⟨u, _, .rlock (js := (s.thr u).jobs) (by rw [← h2]) hw⟩
        · by_cases h3 : ∃ v, (s.thr u).pc = .got v
          · obtain ⟨v, h3⟩ := h3
            exact ⟨u, _, .lock (js := (s.thr u).jobs) (by rw [← h3]) hw hr⟩
          · exact inside u h1 h2 (fun v e => h3 ⟨v, e⟩)
      by_cases h1 : (s.thr t).pc = .idle
      · generalize e : s.thr t = q at *
        obtain ⟨_ | ⟨j, js⟩, pc⟩ := q
        · exact absurd (by rw [← h1]) ht
        · subst h1
          by_cases hm : locked = true → s.mu = none
          · exact ⟨t, _, .begin e hm⟩
          · obtain ⟨hl, hm⟩ := Classical.not_imp.1 hm
            obtain ⟨u, hu⟩ := Option.ne_none_iff_exists'.1 hm
            exact go u ((hk.mu hl u).1 hu)
      · exact go t h1
  · obtain ⟨u, hu⟩ := Option.ne_none_iff_exists'.1 hw
    rcases (hk.wr u).1 hu with e | ⟨v, e⟩
    · exact inside u (by rw [e]; nofun) (by rw [e]; nofun) (by rw [e]; nofun)
    · exact inside u (by rw [e]; nofun) (by rw [e]; nofun) (by rw [e]; nofun)

/-- **C165, an end.** Of finitely many goroutines nobody goes on for ever. -/
theorem C165_ends {locked : Bool} {m : K → Option V} {prog : Nat → List (Job K V)} {s : St K V} (h : Reach locked m prog s) (N : Nat) :
    Acc (fun s' s => ∃ t, t < N ∧ Step locked t s s') s := by
  have hacc := Conc.acc_prod (R := fun _ (a b : Th K V) => a.cost < b.cost) N s.thr
    (fun t _ => (InvImage.wf (fun a : Th K V => a.cost) Nat.lt_wfRel.wf).apply _)
  generalize hx : s.thr = x at hacc
  induction hacc generalizing s with
  | intro x _ ih =>
    subst hx
    refine ⟨_, fun s' ⟨t, ht, hs⟩ => ih s'.thr ⟨t, ht, ?_⟩ (h.step hs) rfl⟩
    exact cost_step (locks_reach h) hs

/-! ## A case -/

/-- Goroutine 0 counts keys 1, 2 and 1, goroutine 1 counts key 3: no mutex, nothing lost. -/
def words : Nat → List (Job Nat Nat)
  | 0 => [count1 1, count1 2, count1 1]
  | 1 => [count1 3]
  | _ => []

example : Own words 0 1 ∧ entry (none : Option Nat) ((words 0).filter (fun j => decide (j.key = 1))) = some 2 := by
  refine ⟨fun u hu j hj => ?_, by decide⟩
  match u with
  | 0 => exact absurd rfl hu
  | 1 => cases List.mem_singleton.1 hj; decide
  | u + 2 => cases hj

end
end Verif.MapUpd
