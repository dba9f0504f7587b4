import Verif.PoolProg.Lemmas
set_option linter.unusedSectionVars false
/-!
# Handlers that store results, with every call made at once
-/
namespace Verif.PoolProg
open Verif.GoPool Verif.Conc Verif.Conc.RW Verif.SyncMap Verif.SyncAny Verif.SyncKey

variable {K V Q : Type} [Inhabited V] {eq : K → K → Bool} {key : Nat → K} {val : Nat → V} {q : Client Q (Call K V) (Res K V)}
  {mx : Int} {n : Nat} {l : Nat → Q}

/-- The handler was called with job `j` and has stored. -/
def Stored (a : ASys (List (Op K V)) (Local Q)) (j : Nat) : Prop := a.pool.handled j ≠ 0 ∧ ∀ k, a.loc (2 * k) ≠ .store j

structure SInv (key : Nat → K) (val : Nat → V) (a : ASys (List (Op K V)) (Local Q)) : Prop where
  work : ∀ k, a.loc (2 * k) = .off ∨ ∃ j w c, a.loc (2 * k) = .store j ∧ a.pool.gor k = .handling w c j
  out : ∀ b, ∃ s, a.loc (2 * b + 1) = .other s
  busy : ∀ k w c j, a.pool.gor k = .handling w c j → a.pool.handled j ≠ 0
  one : ∀ k k' w w' c c' j, a.pool.gor k = .handling w c j → a.pool.gor k' = .handling w' c' j → k = k'
  hist : ∃ js : List Nat, js.Nodup ∧ (∀ j, j ∈ js ↔ Stored a j) ∧ a.mem = js.map fun j => .set (key j) (val j)

/-- Calls that read leave the history as it is. -/
theorem reads_step {h h' : List (Op K V)} {c : Call K V} {r : Res K V} (hc : Reads c) (st : histStep eq h c r h') : h' = h := by
  cases c with
  | set | delete | clear => exact hc.elim
  | get | has | size | keys | values => exact st.2

theorem sinv_step (hq : ∀ s c, q.call s = some c → Reads c) {a a' : ASys (List (Op K V)) (Local Q)} (i : SInv key val a)
    (o' : ExactlyOnce a'.pool) (st : AtStep (histObj eq) (storing key val q) .store a a') : SInv key val a' := by
  obtain ⟨i1, i2, i3, i4, js, i5, i6, i7⟩ := i
  cases st with
  | @take k w c j h1 h2 =>
    have h0 : a.pool.handled j = 0 := by
      have := o'.atMostOnce j
      simp [takeJob, St.setGor] at this
      exact this
    have hk : ∀ k', k' ≠ k → (takeJob a.pool k w c j).gor k' = a.pool.gor k' := fun k' e => by simp [takeJob, gor_setGor, e]
    have hkk : (takeJob a.pool k w c j).gor k = .handling w c j := by simp [takeJob, gor_setGor]
    have nj : ∀ k' w c, a.pool.gor k' ≠ .handling w c j := fun k' w c e => i3 k' w c j e h0
    have sto : ∀ i, Stored (Q := Q) ⟨takeJob a.pool k w c j, a.mem, setLoc a.loc (2 * k) (.store j)⟩ i ↔ Stored a i := by
      intro i
      by_cases e : i = j
      · subst e
        exact ⟨fun h => absurd (setLoc_same _ _ _) (h.2 k), fun h => absurd h0 h.1⟩
      · have ho : a.loc (2 * k) ≠ .store i := fun h => by
          rcases i1 k with g | ⟨j', w', c', _, g⟩
          · rw [g] at h; cases h
          · rw [h1] at g; cases g
        refine ⟨fun h => ⟨?_, fun k' => ?_⟩, fun h => ⟨?_, fun k' => ?_⟩⟩
        · simpa [takeJob, St.setGor, e] using h.1
        · by_cases ek : k' = k
          · subst ek; exact ho
          · have := h.2 k'
            simp only [setLoc_ne a.loc (Local.store j) (show 2 * k' ≠ 2 * k by omega)] at this
            exact this
        · simpa [takeJob, St.setGor, e] using h.1
        · by_cases ek : k' = k
          · subst ek
            simp only [setLoc_same]
            intro h; cases h; exact e rfl
          · simp only [setLoc_ne a.loc (Local.store j) (show 2 * k' ≠ 2 * k by omega)]
            exact h.2 k'
    refine ⟨fun k' => ?_, fun b => ?_, fun k' w' c' j' hg => ?_, fun k1 k2 w1 w2 c1 c2 j' g1 g2 => ?_,
      js, i5, fun i => (i6 i).trans (sto i).symm, i7⟩
    · by_cases ek : k' = k
      · subst ek; exact .inr ⟨j, w, c, setLoc_same _ _ _, hkk⟩
      · simp only [setLoc_ne a.loc (Local.store j) (show 2 * k' ≠ 2 * k by omega), hk k' ek]
        exact i1 k'
    · simp only [setLoc_ne a.loc (Local.store j) (show 2 * b + 1 ≠ 2 * k by omega)]
      exact i2 b
    · by_cases ek : k' = k
      · subst ek
        simp only [hkk] at hg
        cases hg
        simp [takeJob, St.setGor]
      · simp only [hk k' ek] at hg
        have := i3 _ _ _ _ hg
        simp only [takeJob, St.setGor]
        split
        · omega
        · exact this
    · by_cases e1 : k1 = k
      · subst e1
        simp only [hkk] at g1
        cases g1
        by_contra e2
        simp only [hk k2 (fun e => e2 e.symm)] at g2
        exact nj _ _ _ g2
      · simp only [hk k1 e1] at g1
        by_cases e2 : k2 = k
        · subst e2
          simp only [hkk] at g2
          cases g2
          exact absurd g1 (nj _ _ _)
        · simp only [hk k2 e2] at g2
          exact i4 _ _ _ _ _ _ _ g1 g2
  | @back k w c j h1 h2 =>
    have hk : ∀ k' w' c' j', (a.pool.setGor k (.stamp w c)).gor k' = .handling w' c' j' → k' ≠ k ∧ a.pool.gor k' = .handling w' c' j' := by
      intro k' w' c' j' h
      rw [gor_setGor] at h
      split at h
      · cases h
      · rename_i e; exact ⟨e, h⟩
    refine ⟨fun k' => ?_, i2, fun k' w' c' j' hg => i3 _ _ _ _ (hk _ _ _ _ hg).2, fun k1 k2 w1 w2 c1 c2 j' g1 g2 =>
      i4 _ _ _ _ _ _ _ (hk _ _ _ _ g1).2 (hk _ _ _ _ g2).2, js, i5, i6, i7⟩
    rcases i1 k' with g | ⟨j', w', c', g1, g2⟩
    · exact .inl g
    · right
      refine ⟨j', w', c', g1, ?_⟩
      have e : k' ≠ k := by rintro rfl; simp only [g1, storing] at h2; cases h2
      simp only [gor_setGor, e]
      exact g2
  | @pool s h1 h2 =>
    have hh := same_handled h1 h2
    have sto : ∀ i, Stored (Q := Q) ⟨s, a.mem, a.loc⟩ i ↔ Stored a i := fun i => by unfold Stored; simp only [hh]
    refine ⟨fun k => ?_, i2, fun k w c j hg => ?_, fun k1 k2 w1 w2 c1 c2 j g1 g2 => i4 _ _ _ _ _ _ _ ((h2 _ _ _ _).1 g1) ((h2 _ _ _ _).1 g2),
      js, i5, fun i => (i6 i).trans (sto i).symm, i7⟩
    · rcases i1 k with g | ⟨j, w, c, g1, g2⟩
      · exact .inl g
      · exact .inr ⟨j, w, c, g1, (h2 _ _ _ _).2 g2⟩
    · simp only [hh]; exact i3 _ _ _ _ ((h2 _ _ _ _).1 hg)
  | @call t c r m h1 h2 =>
    rcases Nat.mod_two_eq_zero_or_one t with e | e
    · obtain ⟨k, rfl⟩ : ∃ k, t = 2 * k := ⟨t / 2, by omega⟩
      rcases i1 k with g | ⟨j, w, ch, g1, g2⟩
      · rw [g] at h1; cases h1
      · rw [g1] at h1
        cases h1
        obtain ⟨rfl, rfl⟩ : r = .unit ∧ m = a.mem ++ [SyncAny.Op.set (key j) (val j)] := h2
        have hr : (storing key val q).resume (a.loc (2 * k)) .unit = .off := by rw [g1]; rfl
        rw [hr]
        have sto : ∀ i, Stored (Q := Q) ⟨a.pool, a.mem ++ [.set (key j) (val j)], setLoc a.loc (2 * k) .off⟩ i ↔ Stored a i ∨ i = j := by
          intro i
          refine ⟨fun h => ?_, ?_⟩
          · by_cases e : i = j
            · exact .inr e
            · refine .inl ⟨h.1, fun k' => ?_⟩
              by_cases ek : k' = k
              · subst ek; rw [g1]; intro h; cases h; exact e rfl
              · have := h.2 k'
                simp only [setLoc_ne a.loc (Local.off : Local Q) (show 2 * k' ≠ 2 * k by omega)] at this
                exact this
          · rintro (h | rfl)
            · refine ⟨h.1, fun k' => ?_⟩
              by_cases ek : k' = k
              · subst ek; simp only [setLoc_same]; nofun
              · simp only [setLoc_ne a.loc (Local.off : Local Q) (show 2 * k' ≠ 2 * k by omega)]
                exact h.2 k'
            · refine ⟨i3 _ _ _ _ g2, fun k' h => ?_⟩
              by_cases ek : k' = k
              · subst ek; simp only [setLoc_same] at h; cases h
              · simp only [setLoc_ne a.loc (Local.off : Local Q) (show 2 * k' ≠ 2 * k by omega)] at h
                rcases i1 k' with g | ⟨j', w', c', g3, g4⟩
                · rw [g] at h; cases h
                · rw [h] at g3; cases g3
                  exact ek (i4 _ _ _ _ _ _ _ g4 g2)
        refine ⟨fun k' => ?_, fun b => ?_, i3, i4, js ++ [j], ?_, fun i => ?_, ?_⟩
        · by_cases ek : k' = k
          · subst ek; exact .inl (setLoc_same _ _ _)
          · simp only [setLoc_ne a.loc (Local.off : Local Q) (show 2 * k' ≠ 2 * k by omega)]
            exact i1 k'
        · simp only [setLoc_ne a.loc (Local.off : Local Q) (show 2 * b + 1 ≠ 2 * k by omega)]
          exact i2 b
        · have : j ∉ js := fun h => ((i6 j).1 h).2 k g1
          simpa [List.nodup_append, i5] using fun x hx (e : x = j) => this (e ▸ hx)
        · rw [sto, ← i6]; simp
        · simp [i7]
    · obtain ⟨b, rfl⟩ : ∃ b, t = 2 * b + 1 := ⟨t / 2, by omega⟩
      obtain ⟨s, hs⟩ := i2 b
      rw [hs] at h1
      have hm : m = a.mem := reads_step (hq s c h1) h2
      subst hm
      have hr : (storing key val q).resume (a.loc (2 * b + 1)) r = .other (q.resume s r) := by rw [hs]; rfl
      rw [hr]
      have ev : ∀ k, setLoc a.loc (2 * b + 1) (.other (q.resume s r)) (2 * k) = a.loc (2 * k) := fun k => setLoc_ne _ _ (by omega)
      have sto : ∀ i, Stored (Q := Q) ⟨a.pool, a.mem, setLoc a.loc (2 * b + 1) (.other (q.resume s r))⟩ i ↔ Stored a i := fun i => by
        unfold Stored; simp only [ev]
      refine ⟨fun k => by simp only [ev]; exact i1 k, fun b' => ?_, i3, i4, js, i5, fun i => (i6 i).trans (sto i).symm, i7⟩
      · by_cases e : b' = b
        · subst e; exact ⟨_, setLoc_same _ _ _⟩
        · simp only [setLoc_ne a.loc (Local.other (q.resume s r)) (show 2 * b' + 1 ≠ 2 * b + 1 by omega)]
          exact i2 b'

theorem sinv_reach (hm : 0 < mx) (hq : ∀ s c, q.call s = some c → Reads c) {a : ASys (List (Op K V)) (Local Q)}
    (h : AtReach (histObj eq) (storing key val q) .store mx n (outside l) a) : SInv key val a := by
  induction h with
  | start tt =>
    refine ⟨fun k => .inl (by simp [outside]), fun b => ⟨l b, ?_⟩, fun k w c j hg => ?_, fun k k' w w' c c' j hg => ?_, [], List.nodup_nil, fun j => ?_, rfl⟩
    · have h1 : (2 * b + 1) % 2 = 1 := by omega
      have h2 : (2 * b + 1) / 2 = b := by omega
      simp [outside, h1, h2]
    · simp only [GoPool.init] at hg; split at hg <;> cases hg
    · simp only [GoPool.init] at hg; split at hg <;> cases hg
    · simp [Stored, GoPool.init]
  | step h st ih => exact sinv_step hq ih (exactlyOnce hm (h.step st).pool) st

variable {x : Sys (List (K × V)) (List (K × V)) (Call K V) (Res K V) (Local Q)}

theorem outside_off (l : Nat → Q) (k : Nat) : (storing key val q).call (outside l (2 * k)) = none := by simp [outside, storing]

/-- A handler that has returned has stored. -/
theorem returned_stored {m : List (Op K V)} {s : GoPool.St} {lo : Nat → Local Q} (i : SInv key val ⟨s, m, lo⟩) {j : Nat} (h : Returned s j) :
    Stored ⟨s, m, lo⟩ j :=
  ⟨h.1, fun k hk => by
    rcases i.work k with g | ⟨j', w, c, g1, g2⟩
    · rw [hk] at g; cases g
    · rw [hk] at g1; cases g1
      exact h.2 _ _ _ g2⟩

/-- Where everybody is, with the calls made at once. -/
theorem at_hist (hm : 0 < mx) (pe : PartialEq eq) (hq : ∀ s c, q.call s = some c → Reads c)
    (h : PReach (syncmap eq) (storing key val q) .store mx n (outside l) x) :
    ∃ (js : List Nat) (lo : Nat → Local Q), js.Nodup ∧ SInv key val ⟨x.pool, js.map fun j => .set (key j) (val j), lo⟩ ∧
      (∀ j, j ∈ js ↔ Stored ⟨x.pool, js.map fun j => .set (key j) (val j), lo⟩ j) ∧ x.prog.obj.m = run eq (js.map fun j => .set (key j) (val j)) := by
  have h1 := atomic readsOnly (outside_off l) h
  obtain ⟨hist, h2, h3⟩ := at_sim (o := seqObj (syncmap eq)) (o' := histObj eq) (fun m hist => m = run eq hist) rfl
    (fun m m' c r hist e st => by subst e; exact sim_step pe hist c r m' st) h1
  have i := sinv_reach hm hq h2
  obtain ⟨js, h4, h5, h6⟩ := i.hist
  simp only at h6 h3
  subst h6
  exact ⟨js, _, h4, i, h5, h3⟩

theorem run_own (ok : OwnKeys eq key) {js : List Nat} (hn : js.Nodup) :
    run eq (js.map fun j => .set (key j) (val j)) = (js.map fun j => (key j, val j)).reverse := by
  induction js using List.reverseRecOn with
  | nil => rfl
  | append_singleton js j ih =>
    have h1 : js.Nodup ∧ j ∉ js := by
      rw [List.nodup_append] at hn
      exact ⟨hn.1, fun h => hn.2.2 j h j (by simp) rfl⟩
    rw [List.map_append, List.map_cons, List.map_nil, run_append, ih h1.1]
    simp only [SyncAny.step, SyncAny.assign, List.map_append, List.map_cons, List.map_nil, List.reverse_append, List.reverse_cons, List.reverse_nil, List.nil_append,
      List.singleton_append, List.cons.injEq, true_and]
    rw [List.filter_eq_self]
    intro e he
    simp only [List.mem_reverse, List.mem_map] at he
    obtain ⟨i, hi, rfl⟩ := he
    have : ¬ eq (key i) (key j) = true := fun h => h1.2 ((ok i j).1 h ▸ hi)
    simpa using this

/-- When no worker is left the handlers of all accepted jobs have returned. -/
theorem none_left {s : GoPool.St} (hm : 0 < mx) (h : GoPool.Reach mx n s) (hw : s.workers = 0) {j : Nat} (hj : s.job j = .accepted) : Returned s j := by
  obtain ⟨ks, h1, h2, h3⟩ := C50_counts hm h
  have : ks = [] := List.eq_nil_of_length_eq_zero (by omega)
  subst this
  have dead : ∀ k, (s.gor k).live = false := fun k => by
    have := h2 k
    cases hl : (s.gor k).live with
    | false => rfl
    | true => exact absurd (this.2 hl) (by simp)
  refine ⟨fun h0 => ?_, fun k w c e => ?_⟩
  · obtain ⟨w, c, k, _, _, _, h4, _⟩ := (exactlyOnce hm h).notLost j hj h0
    have := dead k
    rcases h4 with h4 | h4 <;> rw [h4] at this <;> cases this
  · have := dead k
    rw [e] at this; cases this

/-- What the handler has done stays. -/
theorem returned_step {x' : Sys (List (K × V)) (List (K × V)) (Call K V) (Res K V) (Local Q)}
    (o' : ExactlyOnce x'.pool) (st : PStep (syncmap eq) (storing key val q) .store x x') {j : Nat} (hj : Returned x.pool j) : Returned x'.pool j := by
  obtain ⟨h1, h2⟩ := hj
  cases st with
  | @take k w c i h3 h4 =>
    have h0 : x.pool.handled i = 0 := by
      have := o'.atMostOnce i
      simp [takeJob, St.setGor] at this
      exact this
    have e : j ≠ i := by rintro rfl; exact h1 h0
    refine ⟨by simpa [takeJob, St.setGor, e] using h1, fun k' w' c' hg => ?_⟩
    simp only [takeJob, gor_setGor] at hg
    split at hg
    · cases hg; exact e rfl
    · exact h2 _ _ _ hg
  | @back k w c i h3 h4 h5 =>
    refine ⟨h1, fun k' w' c' hg => ?_⟩
    simp only [gor_setGor] at hg
    split at hg
    · cases hg
    · exact h2 _ _ _ hg
  | @pool s h3 h4 => exact ⟨by simp only [same_handled h3 h4]; exact h1, fun k w c hg => h2 k w c ((h4 _ _ _ _).1 hg)⟩
  | prog => exact ⟨h1, h2⟩

end Verif.PoolProg
