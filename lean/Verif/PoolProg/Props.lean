import Verif.PoolProg.Fair
/-!
# C171: handlers that store their results in a concurrent map
-/
namespace Verif.PoolProg
open Verif.GoPool Verif.Conc Verif.Conc.RW Verif.SyncMap Verif.SyncAny Verif.SyncKey

section any
variable {σ A C R P : Type} {g : Guarded σ A C R} {p : Client P C R} {entry : Nat → P} {mx : Int} {n : Nat} {l : Nat → P}
  {x : Sys σ A C R P}

/-- **C171, whole calls.** Handlers and goroutines outside run any programs over any object behind a lock: what they reach is reached with every
call of the object made at once, and the pool is in the same state. -/
theorem C171_atomic (ro : ReadsOnly g) (hl : ∀ k, p.call (l (2 * k)) = none) (h : PReach g p entry mx n l x) :
    AtReach (seqObj g) p entry mx n l ⟨x.pool, x.prog.obj.m, fun t => view p (x.prog.loc t) (x.prog.obj.pc t)⟩ :=
  atomic ro hl h

/-- **C171, no deadlock.** While a handler runs, somebody who uses the object can go on, or the handler is at its end and can return. -/
theorem C171_stuck (ro : ReadsOnly g) (lv : Live g) (hl : ∀ k, p.call (l (2 * k)) = none) (h : PReach g p entry mx n l x)
    {k w c j : Nat} (hk : x.pool.gor k = .handling w c j) :
    (∃ y, PStep g p entry x ⟨x.pool, y⟩) ∨ PStep g p entry x ⟨x.pool.setGor k (.stamp w c), x.prog⟩ := by
  by_cases hs : ∃ y, CStep g p x.prog y
  · obtain ⟨y, hy⟩ := hs
    exact .inl ⟨y, .prog hy⟩
  · obtain ⟨h1, h2⟩ := (h.ok hl).fits.stuck ro lv hs (2 * k)
    exact .inr (.back hk h1 h2)

end any

variable {K V Q : Type} [Inhabited V] {eq : K → K → Bool} {key : Nat → K} {val : Nat → V} {q : Client Q (Call K V) (Res K V)}
  {mx : Int} {n : Nat} {l : Nat → Q} {x : Sys (List (K × V)) (List (K × V)) (Call K V) (Res K V) (Local Q)}

/-- **C171, at any moment.** The map holds the results of some jobs, every one of which `Run` had accepted and the handler was called with once;
and of all jobs whose handlers have returned. -/
theorem C171_entries (hm : 0 < mx) (pe : PartialEq eq) (ok : OwnKeys eq key) (hq : ∀ s c, q.call s = some c → Reads c)
    (h : PReach (syncmap eq) (storing key val q) .store mx n (outside l) x) :
    ∃ js : List Nat, js.Nodup ∧ x.prog.obj.m.Perm (js.map fun j => (key j, val j)) ∧
      (∀ j ∈ js, x.pool.job j = .accepted ∧ x.pool.handled j = 1) ∧ ∀ j, Returned x.pool j → j ∈ js := by
  obtain ⟨js, lo, h1, i, h2, h3⟩ := at_hist hm pe hq h
  have o := exactlyOnce hm h.pool
  refine ⟨js, h1, ?_, fun j hj => ?_, fun j hj => (h2 j).2 (returned_stored i hj)⟩
  · rw [h3, run_own ok h1]; exact List.reverse_perm _
  · have h4 := ((h2 j).1 hj).1
    refine ⟨?_, ?_⟩
    · by_contra hne; exact h4 (o.onlyAccepted j hne)
    · have := o.atMostOnce j; simp only at h4; omega

/-- **C171.** Whenever `Workers` returns 0 the map holds exactly the results of the jobs for which `Run` returned true. -/
theorem C171_all (hm : 0 < mx) (pe : PartialEq eq) (ok : OwnKeys eq key) (hq : ∀ s c, q.call s = some c → Reads c)
    (h : PReach (syncmap eq) (storing key val q) .store mx n (outside l) x) (hw : x.pool.workers = 0) :
    ∃ js : List Nat, js.Nodup ∧ (∀ j, j ∈ js ↔ x.pool.job j = .accepted) ∧ x.prog.obj.m.Perm (js.map fun j => (key j, val j)) := by
  obtain ⟨js, h1, h2, h3, h4⟩ := C171_entries hm pe ok hq h
  exact ⟨js, h1, fun j => ⟨fun hj => (h3 j hj).1, fun hj => h4 j (none_left hm h.pool hw hj)⟩, h2⟩

/-- **C171, shared keys.** Jobs may have the same key: once the handler of one of them has returned, its key has the result of one of them. -/
theorem C171_shared (hm : 0 < mx) (pe : PartialEq eq) (hq : ∀ s c, q.call s = some c → Reads c)
    (h : PReach (syncmap eq) (storing key val q) .store mx n (outside l) x) {j : Nat} (hj : Returned x.pool j) (hk : eq (key j) (key j) = true) :
    ∃ i, x.pool.job i = .accepted ∧ eq (key j) (key i) = true ∧ find eq x.prog.obj.m (key j) = some (val i) := by
  obtain ⟨js, lo, h1, i, h2, h3⟩ := at_hist hm pe hq h
  have hmem := (h2 j).2 (returned_stored i hj)
  have acc : ∀ i ∈ js, x.pool.job i = .accepted := fun i hi => by
    by_contra hne; exact ((h2 i).1 hi).1 ((exactlyOnce hm h.pool).onlyAccepted i hne)
  rw [h3, find_lookup pe]
  clear h1 i h2 h3
  induction js using List.reverseRecOn with
  | nil => cases hmem
  | append_singleton js i ih =>
    rw [List.map_append, List.map_cons, List.map_nil, lookup_set]
    by_cases he : eq (key j) (key i) = true
    · exact ⟨i, acc i (by simp), he, by rw [if_pos he]⟩
    · rw [if_neg he]
      rcases List.mem_append.1 hmem with h5 | h5
      · exact ih h5 fun i' hi' => acc i' (by simp [hi'])
      · simp at h5; subst h5; exact absurd hk he

/-- **C171, found.** A `Get` of a job's key that begins after the job's handler has returned gives the job's result. -/
theorem C171_get (hm : 0 < mx) (pe : PartialEq eq) (ok : OwnKeys eq key) (hq : ∀ s c, q.call s = some c → Reads c)
    (h : PReach (syncmap eq) (storing key val q) .store mx n (outside l) x) {j t : Nat} (hj : Returned x.pool j) (ht : x.prog.obj.pc t = .idle)
    {x' : Sys (List (K × V)) (List (K × V)) (Call K V) (Res K V) (Local Q)}
    (hx : Relation.ReflTransGen (PStep (syncmap eq) (storing key val q) .store) x x') {id : Nat} {r : Res K V}
    (hr : x'.prog.obj.pc t = .out id (.get (key j)) r) : r = .val (val j) := by
  have key' : ∀ {x'}, Relation.ReflTransGen (PStep (syncmap eq) (storing key val q) .store) x x' →
      PReach (syncmap eq) (storing key val q) .store mx n (outside l) x' ∧ Returned x'.pool j ∧
      ∀ id r, x'.prog.obj.pc t = .held id (.get (key j)) r ∨ x'.prog.obj.pc t = .out id (.get (key j)) r → r = .val (val j) := by
    intro x' hx
    induction hx with
    | refl => exact ⟨h, hj, fun id r hp => by rw [ht] at hp; rcases hp with hp | hp <;> cases hp⟩
    | @tail y z _ st ih =>
      obtain ⟨i1, i2, i3⟩ := ih
      refine ⟨i1.step st, returned_step (exactlyOnce hm (i1.step st).pool) st i2, fun id r hp => ?_⟩
      cases st with
      | take => exact i3 id r hp
      | back => exact i3 id r hp
      | pool => exact i3 id r hp
      | @prog w hs =>
        cases hs with
        | @invoke u c h1 h2 =>
          by_cases e : t = u
          · subst e; simp only [setPc_same] at hp; rcases hp with hp | hp <;> cases hp
          · simp only [setPc_ne _ _ e] at hp; exact i3 id r hp
        | @ret u id' c r' h1 =>
          by_cases e : t = u
          · subst e; simp only [setPc_same] at hp; rcases hp with hp | hp <;> cases hp
          · simp only [setPc_ne _ _ e] at hp; exact i3 id r hp
        | @inner o so hh =>
          cases so with
          | invoke => simp at hh
          | ret => simp at hh
          | @rlock u | @lock u | @iter u =>
            by_cases e : t = u
            · subst e; simp only [setPc_same] at hp; rcases hp with hp | hp <;> cases hp
            · simp only [setPc_ne _ _ e] at hp; exact i3 id r hp
          | @runlock u id' c r' h1 | @unlock u id' c r' h1 =>
            by_cases e : t = u
            · subst e; simp only [setPc_same] at hp
              rcases hp with hp | hp
              · cases hp
              · cases hp; exact i3 _ _ (.inl h1)
            · simp only [setPc_ne _ _ e] at hp; exact i3 id r hp
          | @access u id' c acc r' m' h1 h2 =>
            by_cases e : t = u
            · subst e; simp only [setPc_same] at hp
              rcases hp with hp | hp
              · cases hp
                obtain ⟨i, _, h4, h5⟩ := C171_shared hm pe hq i1 i2 ((ok j j).2 rfl)
                obtain ⟨rfl, _⟩ : r = .val ((find eq y.prog.obj.m (key j)).getD default) ∧ m' = y.prog.obj.m := h2
                rw [h5, (ok j i).1 h4]
                rfl
              · cases hp
            · simp only [setPc_ne _ _ e] at hp; exact i3 id r hp
  exact (key' hx).2.2 id r (.inr hr)

/-- **C171, after `Stop`.** In an execution in which everything that was started goes on (C126), handlers included, the results of exactly the accepted
jobs are in the map some time after `Stop` has returned, and stay there. The pool has no preheated workers; with them `Workers` may stay above 0 (C126). -/
theorem C171_stop (hm : 0 < mx) (pe : PartialEq eq) (ok : OwnKeys eq key) (hq : ∀ s c, q.call s = some c → Reads c)
    {τ : Nat → Sys (List (K × V)) (List (K × V)) (Call K V) (Res K V) (Local Q)}
    (h0 : ∃ tt, τ 0 = ⟨GoPool.init mx 0 tt, ⟨RW.start (syncmap eq), outside l⟩⟩)
    (hs : ∀ a, PStep (syncmap eq) (storing key val q) .store (τ a) (τ (a + 1)) ∨ τ (a + 1) = τ a)
    (hf : PoolDrain.Fair fun a => (τ a).pool) {a k : Nat} (hk : (τ a).pool.stop k = .returned) :
    ∃ N, ∀ b, N ≤ b → ∃ js : List Nat, js.Nodup ∧ (∀ j, j ∈ js ↔ (τ b).pool.job j = .accepted) ∧
      (τ b).prog.obj.m.Perm (js.map fun j => (key j, val j)) := by
  have hr : ∀ b, PReach (syncmap eq) (storing key val q) .store mx 0 (outside l) (τ b) := fun b => by
    induction b with
    | zero => obtain ⟨tt, e⟩ := h0; rw [e]; exact .start tt
    | succ b ih =>
      rcases hs b with st | e
      · exact ih.step st
      · rw [e]; exact ih
  have e : PoolFair.Exec mx 0 fun a => (τ a).pool := by
    refine ⟨?_, fun b => ?_⟩
    · obtain ⟨tt, e⟩ := h0; exact ⟨tt, by rw [e]⟩
    · rcases hs b with st | e
      · exact st.project
      · exact .inr (by rw [e])
  obtain ⟨N, _, hN⟩ := PoolDrain.C126_partial hm e hf hk
  exact ⟨N, fun b hb => C171_all hm pe ok hq (hr b) (hN b hb).1⟩

/-! ## A case -/

theorem same_rfl {s s' : GoPool.St} (h : s'.gor = s.gor) : SameHandlers s s' := fun k w c j => by rw [h]

theorem same_set {s s' : GoPool.St} {k : Nat} {b : GorPc} (h : s'.gor = fun i => if i = k then b else s.gor i) (h1 : ∀ w c j, b ≠ .handling w c j)
    (h2 : ∀ w c j, s.gor k ≠ .handling w c j) : SameHandlers s s' := fun i w c j => by
  rw [h]
  simp only
  split
  · rename_i e; subst e; exact ⟨fun g => absurd g (h1 _ _ _), fun g => absurd g (h2 _ _ _)⟩
  · rfl

/-- The goroutine outside reads the key of job 7 once. -/
def once : Client (Option Nat) (Call Nat Nat) (Res Nat Nat) where
  call
    | none => some (.get 7)
    | some _ => none
  resume
    | none, .val v => some v
    | s, _ => s

abbrev eqN (a b : Nat) : Bool := decide (a = b)
abbrev prog7 : Client (Local (Option Nat)) (Call Nat Nat) (Res Nat Nat) := storing (fun j => j) (fun j => j + 100) once

/-- Job 7 is handed to a pool of one worker; its handler stores 107 and returns; `Stop` is called and the worker ends. -/
theorem case7 : ∃ x, PReach (syncmap eqN) prog7 .store 1 0 (outside fun a => if a = 0 then none else some 0) x ∧ x.pool.job 7 = .accepted ∧
    x.pool.workers = 0 ∧ Returned x.pool 7 ∧ x.prog.obj.pc 1 = .idle ∧ x.prog.loc 1 = .other none ∧ x.prog.obj.writer = none ∧
    x.prog.obj.next = 1 ∧ x.prog.obj.m = [(7, 107)] ∧ Ended x.pool ∧ x.pool.stop 0 = .returned := by
  have h0 := PReach.start (g := syncmap eqN) (p := prog7) (entry := .store) (mx := 1) (n := 0)
    (l := outside fun a => if a = 0 then none else some 0) (fun _ => 0)
  have h1 := h0.step (.pool (.call _ 7 rfl) (same_rfl rfl))
  have h2 := h1.step (.pool (.runFresh _ 7 rfl (by decide) rfl (by decide)) (same_set (k := 0) rfl nofun
    fun w c j h => by cases (show GorPc.unborn = .handling w c j from h)))
  have h3 := h2.step (.pool (.send _ 7 0 0 rfl rfl rfl rfl) (same_rfl rfl))
  have h4 := h3.step (.pool (.begin _ 0 0 rfl) (same_set (k := 0) rfl nofun nofun))
  have h5 := h4.step (.take (k := 0) (w := 0) (c := 0) (j := 7) rfl rfl)
  have h6 := h5.step (.prog (.invoke (t := 0) (c := .set 7 107) rfl rfl))
  have h7 := h6.step (.prog (.inner (.lock (t := 0) (id := 0) (c := .set 7 107) rfl rfl rfl rfl) rfl))
  have h8 := h7.step (.prog (.inner (.access (t := 0) (id := 0) (c := .set 7 107) (acc := []) (r := .unit) (m' := [(7, 107)]) rfl
    (by exact ⟨rfl, rfl⟩)) rfl))
  have h9 := h8.step (.prog (.inner (.unlock (t := 0) (id := 0) (c := .set 7 107) (r := .unit) rfl rfl) rfl))
  have h10 := h9.step (.prog (.ret (t := 0) (id := 0) (c := .set 7 107) (r := .unit) rfl))
  have h11 := h10.step (.back (k := 0) (w := 0) (c := 0) (j := 7) rfl rfl rfl)
  have h12 := h11.step (.pool (.stamp _ 0 0 0 5 rfl) (same_set (k := 0) rfl nofun nofun))
  have h13 := h12.step (.pool (.freeBack _ 0 0 0 rfl (by decide)) (same_set (k := 0) rfl nofun nofun))
  have h14 := h13.step (.pool (.stopCall _ 0 rfl rfl) (same_rfl rfl))
  have h15 := h14.step (.pool (.stopSignal _ 0 rfl rfl rfl) (same_rfl rfl))
  have h16 := h15.step (.pool (.stopAll _ _ rfl rfl) (same_rfl rfl))
  have h17 := h16.step (.pool (.rangeEnd _ 0 0 0 rfl rfl rfl) (same_set (k := 0) rfl nofun nofun))
  have h18 := h17.step (.pool (.exit _ 0 rfl) (same_set (k := 0) rfl nofun nofun))
  have h19 := h18.step (.pool (.stopClear _ 0 rfl) (same_rfl rfl))
  refine ⟨_, h19, rfl, rfl, ⟨nofun, fun k w c e => ?_⟩, rfl, rfl, rfl, rfl, rfl, ⟨fun k => ?_, fun j => ?_, rfl, fun k => ?_⟩, rfl⟩
  · rcases k with _ | k <;> cases e
  · rcases k with _ | k
    · exact .inl rfl
    · exact .inr rfl
  · by_cases e : j = 7
    · subst e; exact .inl rfl
    · refine .inr (.inr ?_)
      simp [St.setStop, St.setGor, St.setJob, St.spawn, takeJob, GoPool.init, e]
  · by_cases e : k = 0
    · subst e; exact .inl rfl
    · refine .inr ?_
      simp [St.setStop, St.setGor, St.setJob, St.spawn, takeJob, GoPool.init, e]

theorem eqN_ok : PartialEq eqN ∧ OwnKeys eqN (fun j => j) ∧ ∀ s c, once.call s = some c → Reads c := by
  refine ⟨⟨fun h => by simp_all, fun h h' => by simp_all⟩, fun i j => by simp, fun s c h => ?_⟩
  cases s with
  | none => cases h; trivial
  | some => cases h

/-- Then the goroutine outside finds 107. -/
example : ∃ x x', PReach (syncmap eqN) prog7 .store 1 0 (outside fun a => if a = 0 then none else some 0) x ∧ x.pool.job 7 = .accepted ∧
    x.pool.workers = 0 ∧ Returned x.pool 7 ∧ Relation.ReflTransGen (PStep (syncmap eqN) prog7 .store) x x' ∧ x.prog.obj.pc 1 = .idle ∧
    x'.prog.obj.pc 1 = .out 1 (.get 7) (.val 107) := by
  obtain ⟨⟨pool, ⟨⟨m, w, rd, pc, nx, hist⟩, lo⟩⟩, h1, h2, h3, h4, h5, h6, h7, h8, h9, _⟩ := case7
  simp only at h5 h6 h7 h8 h9
  subst h7 h8 h9
  refine ⟨_, _, h1, h2, h3, h4, ((((Relation.ReflTransGen.single (.prog (.invoke (t := 1) (c := .get 7) h5 ?_))).tail
      (.prog (.inner (.rlock (t := 1) (id := 1) (c := .get 7) rfl rfl rfl) rfl))).tail
      (.prog (.inner (.access (t := 1) (id := 1) (c := .get 7) (acc := []) (r := .val 107) (m' := [(7, 107)]) rfl
        (by exact ⟨rfl, rfl⟩)) rfl))).tail
      (.prog (.inner (.runlock (t := 1) (id := 1) (c := .get 7) (r := .val 107) rfl rfl) rfl))), h5, rfl⟩
  simp only [h6]
  rfl

/-- And an execution that goes on like that for good is fair. -/
example : ∃ (τ : Nat → Sys (List (Nat × Nat)) (List (Nat × Nat)) (Call Nat Nat) (Res Nat Nat) (Local (Option Nat))) (a : Nat),
    (∃ tt, τ 0 = ⟨GoPool.init 1 0 tt, ⟨RW.start (syncmap eqN), outside fun a => if a = 0 then none else some 0⟩⟩) ∧
    (∀ a, PStep (syncmap eqN) prog7 .store (τ a) (τ (a + 1)) ∨ τ (a + 1) = τ a) ∧ PoolDrain.Fair (fun a => (τ a).pool) ∧
    (τ a).pool.stop 0 = .returned ∧ (τ a).pool.job 7 = .accepted := by
  obtain ⟨x, h1, h2, _, _, _, _, _, _, _, h3, h4⟩ := case7
  obtain ⟨τ, N, t1, t2, t3⟩ := h1.exec
  exact ⟨τ, N, t1, t2, h3.fair (N := N) fun m hm => by rw [t3 m hm], by rw [t3 N (Nat.le_refl _)]; exact h4, by rw [t3 N (Nat.le_refl _)]; exact h2⟩

end Verif.PoolProg
