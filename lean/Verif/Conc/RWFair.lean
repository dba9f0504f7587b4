import Verif.Conc.RWLocal
/-!
# Every call returns, however many are made: objects behind a fair `sync.RWMutex`

`Verif.Conc.RW` has any schedule. Here the lock also keeps what the documentation of `sync.RWMutex` promises: while a goroutine is blocked in `Lock`, no
other goroutine gets the lock for reading before it. `ann` is the goroutine that is next for writing or writes. (`Lock` in sync/rwmutex.go first takes the mutex `w` and
announces itself, then waits for the readers that are in; `Unlock` gives both up.)
-/
set_option linter.unusedSectionVars false
namespace Verif.Conc.RW
open Verif.Conc Relation

variable {σ A C R : Type}

structure FSt (σ A C R : Type) where
  s : St σ A C R
  ann : Option Nat

variable (g : Guarded σ A C R)

/-- A step of goroutine `t`. -/
inductive FStep (t : Nat) : FSt σ A C R → FSt σ A C R → Prop
  | invoke {s : St σ A C R} {a c} : s.pc t = .idle →
      FStep t ⟨s, a⟩ ⟨{ s with pc := setPc s.pc t (.want s.next c), next := s.next + 1, hist := s.hist ++ [.inv s.next c] }, a⟩
  | announce {s : St σ A C R} {id c} : s.pc t = .want id c → g.writes c = true → FStep t ⟨s, none⟩ ⟨s, some t⟩
  | rlock {s : St σ A C R} {id c} : s.pc t = .want id c → g.writes c = false → s.writer = none →
      FStep t ⟨s, none⟩ ⟨{ s with pc := setPc s.pc t (.body id c g.start), readers := t :: s.readers }, none⟩
  | lock {s : St σ A C R} {id c} : s.pc t = .want id c → g.writes c = true → s.writer = none → s.readers = [] →
      FStep t ⟨s, some t⟩ ⟨{ s with pc := setPc s.pc t (.body id c g.start), writer := some t }, some t⟩
  | iter {s : St σ A C R} {a id c acc acc'} : s.pc t = .body id c acc → g.iter s.m c acc acc' →
      FStep t ⟨s, a⟩ ⟨{ s with pc := setPc s.pc t (.body id c acc') }, a⟩
  | access {s : St σ A C R} {a id c acc r m'} : s.pc t = .body id c acc → g.fin s.m c acc r m' →
      FStep t ⟨s, a⟩ ⟨{ s with pc := setPc s.pc t (.held id c r), m := m' }, a⟩
  | runlock {s : St σ A C R} {a id c r} : s.pc t = .held id c r → g.writes c = false →
      FStep t ⟨s, a⟩ ⟨{ s with pc := setPc s.pc t (.out id c r), readers := s.readers.erase t }, a⟩
  | unlock {s : St σ A C R} {a id c r} : s.pc t = .held id c r → g.writes c = true →
      FStep t ⟨s, a⟩ ⟨{ s with pc := setPc s.pc t (.out id c r), writer := none }, none⟩
  | ret {s : St σ A C R} {a id c r} : s.pc t = .out id c r →
      FStep t ⟨s, a⟩ ⟨{ s with pc := setPc s.pc t .idle, hist := s.hist ++ [.ret id r] }, a⟩

/-- An endless execution: at moment `n` goroutine `who n` makes a step, or nobody does. -/
structure Exec (e : Nat → FSt σ A C R) (who : Nat → Option Nat) : Prop where
  zero : e 0 = ⟨start g, none⟩
  step : ∀ n t, who n = some t → FStep g t (e n) (e (n + 1))
  rest : ∀ n, who n = none → e (n + 1) = e n

/-- Fairness, of the scheduler and of the lock: a goroutine in a call that can go on again and again does go on. -/
def FairRun (e : Nat → FSt σ A C R) (who : Nat → Option Nat) : Prop :=
  ∀ n t, (e n).s.pc t ≠ .idle → (∀ k, ∃ m, k ≤ m ∧ ∃ y, FStep g t (e m) y) → ∃ m, n ≤ m ∧ who m = some t

variable {g} {e : Nat → FSt σ A C R} {who : Nat → Option Nat}

/-- It is an execution of the object. -/
theorem FStep.reach {t : Nat} {x y : FSt σ A C R} (st : FStep g t x y) (h : Reach g x.s) : Reach g y.s := by
  cases st with
  | invoke h1 => exact h.step (.invoke h1)
  | announce => exact h
  | rlock h1 h2 h3 => exact h.step (.rlock h1 h2 h3)
  | lock h1 h2 h3 h4 => exact h.step (.lock h1 h2 h3 h4)
  | iter h1 h2 => exact h.step (.iter h1 h2)
  | access h1 h2 => exact h.step (.access h1 h2)
  | runlock h1 h2 => exact h.step (.runlock h1 h2)
  | unlock h1 h2 => exact h.step (.unlock h1 h2)
  | ret h1 => exact h.step (.ret h1)

/-- A step of `t` leaves the others where they are. -/
theorem FStep.others {t u : Nat} {x y : FSt σ A C R} (st : FStep g t x y) (h : u ≠ t) : y.s.pc u = x.s.pc u := by
  cases st <;> first | rfl | exact setPc_ne _ _ h

/-- `ann` is who waits for the lock for writing or has it. -/
structure Ann (g : Guarded σ A C R) (x : FSt σ A C R) : Prop where
  own : ∀ t, x.ann = some t → (∃ id c, x.s.pc t = .want id c ∧ g.writes c = true) ∨ x.s.writer = some t
  writer : ∀ t, x.s.writer = some t → x.ann = some t

theorem FStep.keep (ro : ReadsOnly g) {t : Nat} {x y : FSt σ A C R} (hr : Reach g x.s) (i : Ann g x) (st : FStep g t x y) : Ann g y := by
  obtain ⟨S, inv⟩ := hr.inv ro
  have moved : ∀ (pc' : Nat → Pc A C R), (∀ u, u ≠ t → pc' u = x.s.pc u) → (∀ id c, x.s.pc t = .want id c → g.writes c = false) →
      ∀ u, ((∃ id c, x.s.pc u = .want id c ∧ g.writes c = true) ∨ x.s.writer = some u) → (∃ id c, pc' u = .want id c ∧ g.writes c = true) ∨ x.s.writer = some u := by
    intro pc' ho hn u hu
    rcases hu with ⟨id, c, h1, h2⟩ | hu
    · by_cases e : u = t
      · subst e; rw [hn _ _ h1] at h2; cases h2
      · exact .inl ⟨id, c, by rw [ho u e]; exact h1, h2⟩
    · exact .inr hu
  cases st with
  | invoke h1 => exact ⟨fun u hu => moved _ (fun v hv => setPc_ne _ _ hv) (fun id c h => by rw [h1] at h; cases h) u (i.own u hu), i.writer⟩
  | @announce s id c h1 h2 =>
    refine ⟨fun u hu => ?_, fun u hu => ?_⟩
    · cases hu; exact .inl ⟨id, c, h1, h2⟩
    · exact absurd (i.writer u hu) (by simp)
  | @rlock s id c h1 h2 h3 => exact ⟨fun u hu => (by cases hu), fun u (hu : s.writer = some u) => (by rw [h3] at hu; cases hu)⟩
  | lock h1 h2 h3 h4 => exact ⟨fun u hu => .inr (by cases hu; rfl), fun u hu => hu⟩
  | iter h1 h2 => exact ⟨fun u hu => moved _ (fun v hv => setPc_ne _ _ hv) (fun id c h => by rw [h1] at h; cases h) u (i.own u hu), i.writer⟩
  | access h1 h2 => exact ⟨fun u hu => moved _ (fun v hv => setPc_ne _ _ hv) (fun id c h => by rw [h1] at h; cases h) u (i.own u hu), i.writer⟩
  | runlock h1 h2 => exact ⟨fun u hu => moved _ (fun v hv => setPc_ne _ _ hv) (fun id c h => by rw [h1] at h; cases h) u (i.own u hu), i.writer⟩
  | unlock h1 h2 => exact ⟨fun u hu => (by cases hu), fun u hu => (by cases hu)⟩
  | ret h1 => exact ⟨fun u hu => moved _ (fun v hv => setPc_ne _ _ hv) (fun id c h => by rw [h1] at h; cases h) u (i.own u hu), i.writer⟩

theorem Exec.reach (x : Exec g e who) (n : Nat) : Reach g (e n).s := by
  induction n with
  | zero => rw [x.zero]; exact .init
  | succ n ih =>
    cases h : who n with
    | none => rw [x.rest n h]; exact ih
    | some t => exact (x.step n t h).reach ih

theorem Exec.anns (ro : ReadsOnly g) (x : Exec g e who) (n : Nat) : Ann g (e n) := by
  induction n with
  | zero => rw [x.zero]; exact ⟨fun _ h => (by cases h), fun _ h => (by cases h)⟩
  | succ n ih =>
    cases h : who n with
    | none => rw [x.rest n h]; exact ih
    | some t => exact (x.step n t h).keep ro (x.reach n) ih

/-- A goroutine that makes no step stays where it is. -/
theorem Exec.still (x : Exec g e who) {n m t : Nat} (hm : n ≤ m) (h : ∀ k, n ≤ k → k < m → who k ≠ some t) : (e m).s.pc t = (e n).s.pc t := by
  induction m, hm using Nat.le_induction with
  | base => rfl
  | succ m hm ih =>
    rw [← ih fun k h1 h2 => h k h1 (by omega)]
    cases hw : who m with
    | none => rw [x.rest m hw]
    | some u => exact (x.step m u hw).others fun e => h m hm (by omega) (by rw [hw, e])

/-- The next step of a goroutine that can go on again and again. -/
theorem next_step (x : Exec g e who) (fr : FairRun g e who) {n t : Nat} (hi : (e n).s.pc t ≠ .idle)
    (hen : (∀ k, n ≤ k → who k ≠ some t) → ∀ k, n ≤ k → ∃ m, k ≤ m ∧ ∃ y, FStep g t (e m) y) :
    ∃ m, n ≤ m ∧ (∀ k, n ≤ k → k < m → who k ≠ some t) ∧ (e m).s.pc t = (e n).s.pc t ∧ FStep g t (e m) (e (m + 1)) := by
  have ex : ∃ m, n ≤ m ∧ who m = some t := by
    by_contra hc
    have hno : ∀ k, n ≤ k → who k ≠ some t := fun k hk hw => hc ⟨k, hk, hw⟩
    refine hc (fr n t hi fun k => ?_)
    obtain ⟨m, hm, h⟩ := hen hno (max n k) (Nat.le_max_left ..)
    exact ⟨m, by omega, h⟩
  classical
  have h := Nat.find_spec ex
  have hmin : ∀ k, n ≤ k → k < Nat.find ex → who k ≠ some t := fun k h1 h2 h3 => Nat.find_min ex h2 ⟨h1, h3⟩
  exact ⟨_, h.1, hmin, x.still h.1 hmin, x.step _ t h.2⟩

/-- While a goroutine has the lock nobody else changes the object. -/
theorem FStep.quiet (ro : ReadsOnly g) {t u : Nat} {x y : FSt σ A C R} (hr : Reach g x.s) (hu : ((x.s.pc u).holds g).isSome) (st : FStep g t x y) (h : t ≠ u) :
    y.s.m = x.s.m := by
  obtain ⟨S, inv⟩ := hr.inv ro
  cases st with
  | @access s a id c acc r m' h1 h2 =>
    simp only at hu inv ⊢
    cases hw : g.writes c with
    | false => exact ro _ _ _ _ _ hw h2
    | true =>
      exfalso
      have e1 : s.writer = some t := (inv.writer t).2 (by rw [h1]; simp [Pc.holds, hw])
      cases hv : (s.pc u).holds g with
      | none => rw [hv] at hu; cases hu
      | some b =>
        cases b with
        | true => have := (inv.writer u).2 hv; rw [e1] at this; cases this; exact h rfl
        | false => have := (inv.readers u).2 hv; rw [inv.excl (by rw [e1]; simp)] at this; cases this
  | _ => rfl

/-- The lock is given back. -/
theorem releases (ro : ReadsOnly g) (lv : Live g) {μ : σ → C → A → Nat} (hμ : ShrinksFrom g μ) (x : Exec g e who) (fr : FairRun g e who) {n t id : Nat} {c : C} :
    (∃ acc, (e n).s.pc t = .body id c acc) ∨ (∃ r, (e n).s.pc t = .held id c r) → ∃ m r, n < m ∧ (e m).s.pc t = .out id c r ∧ (g.writes c = true → (e m).ann = none) := by
  have held : ∀ {n r}, (e n).s.pc t = .held id c r → ∃ m r, n < m ∧ (e m).s.pc t = .out id c r ∧ (g.writes c = true → (e m).ann = none) := by
    intro n r hp
    obtain ⟨m, hm, -, h1, st⟩ := next_step x fr (n := n) (t := t) (by rw [hp]; nofun) fun hno k hk => by
      have hpk : (e k).s.pc t = .held id c r := by rw [x.still hk fun i h1 h2 => hno i h1, hp]
      refine ⟨k, Nat.le_refl _, ?_⟩
      generalize e k = z at hpk
      obtain ⟨s, a⟩ := z
      cases hw : g.writes c with
      | false => exact ⟨_, .runlock hpk hw⟩
      | true => exact ⟨_, .unlock hpk hw⟩
    rw [hp] at h1
    generalize e m = a at h1 st
    generalize hb : e (m + 1) = b at st
    refine ⟨m + 1, r, by omega, ?_⟩
    rw [hb]
    cases st with
    | invoke h2 => simp only at h1; rw [h1] at h2; cases h2
    | announce h2 => simp only at h1; rw [h1] at h2; cases h2
    | rlock h2 => simp only at h1; rw [h1] at h2; cases h2
    | lock h2 => simp only at h1; rw [h1] at h2; cases h2
    | iter h2 => simp only at h1; rw [h1] at h2; cases h2
    | access h2 => simp only at h1; rw [h1] at h2; cases h2
    | runlock h2 hw => simp only at h1; rw [h1] at h2; cases h2; exact ⟨by simp, fun h => by rw [hw] at h; cases h⟩
    | unlock h2 => simp only at h1; rw [h1] at h2; cases h2; exact ⟨by simp, fun _ => rfl⟩
    | ret h2 => simp only at h1; rw [h1] at h2; cases h2
  rintro (⟨acc, hp⟩ | ⟨r, hp⟩)
  swap
  · exact held hp
  generalize hN : μ (e n).s.m c acc = N
  induction N using Nat.strongRecOn generalizing n acc with
  | _ N ih =>
    have hit : ReflTransGen (g.iter (e n).s.m c) g.start acc := by
      obtain ⟨S, inv⟩ := (x.reach n).inv ro
      have := inv.pcs t
      rw [hp] at this
      exact this.2.2
    have same : ∀ m, n ≤ m → (∀ k, n ≤ k → k < m → who k ≠ some t) → (e m).s.m = (e n).s.m := by
      intro m hm hno
      induction m, hm using Nat.le_induction with
      | base => rfl
      | succ m hm ih' =>
        rw [← ih' fun k h1 h2 => hno k h1 (by omega)]
        have hpm : (e m).s.pc t = .body id c acc := by rw [x.still hm fun k h1 h2 => hno k h1 (by omega), hp]
        cases hw : who m with
        | none => rw [x.rest m hw]
        | some u =>
          exact (x.step m u hw).quiet ro (x.reach m) (u := t) (by rw [hpm]; simp [Pc.holds]) fun e => hno m hm (by omega) (by rw [hw, e])
    obtain ⟨m, hm, hno, h1, st⟩ := next_step x fr (n := n) (t := t) (by rw [hp]; nofun) fun hno k hk => by
      have hpk : (e k).s.pc t = .body id c acc := by rw [x.still hk fun i h1 h2 => hno i h1, hp]
      have hmk := same k hk fun i h1 h2 => hno i h1
      refine ⟨k, Nat.le_refl _, ?_⟩
      generalize e k = z at hpk hmk
      obtain ⟨s, a⟩ := z
      simp only at hmk hpk
      rcases lv _ _ _ hit with ⟨acc', h⟩ | ⟨r, m', h⟩
      · exact ⟨_, .iter hpk (by rw [hmk]; exact h)⟩
      · exact ⟨_, .access hpk (by rw [hmk]; exact h)⟩
    have hm' := same m hm hno
    rw [hp] at h1
    have key : (∃ acc', (e (m + 1)).s.pc t = .body id c acc' ∧ (e (m + 1)).s.m = (e n).s.m ∧ g.iter (e n).s.m c acc acc') ∨ ∃ r, (e (m + 1)).s.pc t = .held id c r := by
      generalize e m = a at h1 st hm'
      generalize e (m + 1) = b at st
      cases st with
      | invoke h2 => simp only at h1; rw [h1] at h2; cases h2
      | announce h2 => simp only at h1; rw [h1] at h2; cases h2
      | rlock h2 => simp only at h1; rw [h1] at h2; cases h2
      | lock h2 => simp only at h1; rw [h1] at h2; cases h2
      | iter h2 h3 =>
        simp only at h1 hm'
        rw [h1] at h2
        cases h2
        exact .inl ⟨_, setPc_same .., hm', by rw [← hm']; exact h3⟩
      | access h2 => simp only at h1; rw [h1] at h2; cases h2; exact .inr ⟨_, setPc_same ..⟩
      | runlock h2 => simp only at h1; rw [h1] at h2; cases h2
      | unlock h2 => simp only at h1; rw [h1] at h2; cases h2
      | ret h2 => simp only at h1; rw [h1] at h2; cases h2
    rcases key with ⟨acc', k1, k2, k3⟩ | ⟨r, k1⟩
    · obtain ⟨m2, r, q1, q2⟩ := ih _ (by rw [← hN]; exact hμ _ _ _ _ hit k3) (n := m + 1) acc' k1 (by rw [k2])
      exact ⟨m2, r, by omega, q2⟩
    · obtain ⟨m2, r, q1, q2⟩ := held k1
      exact ⟨m2, r, by omega, q2⟩

/-- Who is announced while it waits stays announced, and the readers become fewer. -/
theorem waits (ro : ReadsOnly g) (x : Exec g e who) {n u id : Nat} {c : C} (hp : (e n).s.pc u = .want id c) (ha : (e n).ann = some u)
    (hno : ∀ k, n ≤ k → who k ≠ some u) {m : Nat} (hm : n ≤ m) : (e m).ann = some u ∧ (e m).s.writer = none ∧ (e m).s.readers.Sublist (e n).s.readers := by
  have noWriter : ∀ m, n ≤ m → (e m).ann = some u → (e m).s.writer = none := by
    intro m hm h
    have hpm : (e m).s.pc u = .want id c := by rw [x.still hm fun i h1 h2 => hno i h1, hp]
    obtain ⟨S, inv⟩ := (x.reach m).inv ro
    cases hw : (e m).s.writer with
    | none => rfl
    | some v =>
      have := (x.anns ro m).writer v hw
      rw [h] at this
      cases this
      have := (inv.writer u).1 hw
      rw [hpm] at this
      cases this
  induction m, hm using Nat.le_induction with
  | base => exact ⟨ha, noWriter n (Nat.le_refl _) ha, .refl _⟩
  | succ m hm ih =>
    obtain ⟨i1, i2, i3⟩ := ih
    have : (e (m + 1)).ann = some u ∧ (e (m + 1)).s.readers.Sublist (e m).s.readers := by
      cases hw : who m with
      | none => rw [x.rest m hw]; exact ⟨i1, .refl _⟩
      | some v =>
        have st := x.step m v hw
        obtain ⟨S, inv⟩ := (x.reach m).inv ro
        generalize e m = a at st i1 i2 inv
        generalize e (m + 1) = b at st
        cases st with
        | invoke h2 => exact ⟨i1, .refl _⟩
        | announce h2 => cases i1
        | rlock h2 => cases i1
        | lock h2 => exact ⟨i1, .refl _⟩
        | iter h2 => exact ⟨i1, .refl _⟩
        | access h2 => exact ⟨i1, .refl _⟩
        | runlock h2 => exact ⟨i1, List.erase_sublist⟩
        | unlock h2 h3 =>
          exfalso
          have := (inv.writer v).2 (by simp only; rw [h2]; simp [Pc.holds, h3])
          simp only at this i2
          rw [i2] at this
          cases this
        | ret h2 => exact ⟨i1, .refl _⟩
    exact ⟨this.1, noWriter _ (by omega) this.1, this.2.trans i3⟩

/-- Who is announced gets the lock. -/
theorem locks (ro : ReadsOnly g) (lv : Live g) {μ : σ → C → A → Nat} (hμ : ShrinksFrom g μ) (x : Exec g e who) (fr : FairRun g e who) {n u id : Nat} {c : C}
    (hp : (e n).s.pc u = .want id c) (hw : g.writes c = true) (ha : (e n).ann = some u) : ∃ m, n < m ∧ (e m).s.pc u = .body id c g.start := by
  obtain ⟨m, hm, hno, h1, st⟩ := next_step x fr (n := n) (t := u) (by rw [hp]; nofun) fun hno k hk => by
    -- the readers that are in leave
    have empty : ∀ N k, n ≤ k → (e k).s.readers.length ≤ N → ∃ m, k ≤ m ∧ (e m).s.readers = [] := by
      intro N
      induction N with
      | zero => intro k _ hl; exact ⟨k, Nat.le_refl _, List.length_eq_zero_iff.1 (by omega)⟩
      | succ N ih =>
        intro k hk hl
        cases hr : (e k).s.readers with
        | nil => exact ⟨k, Nat.le_refl _, hr⟩
        | cons v l =>
          obtain ⟨S, inv⟩ := (x.reach k).inv ro
          have hv : ((e k).s.pc v).holds g = some false := (inv.readers v).1 (by rw [hr]; simp)
          obtain ⟨m, hm, hout⟩ : ∃ m, k < m ∧ ((e m).s.pc v).holds g = none := by
            cases hpv : (e k).s.pc v with
            | idle => rw [hpv] at hv; cases hv
            | want => rw [hpv] at hv; cases hv
            | out => rw [hpv] at hv; cases hv
            | body id' c' acc =>
              obtain ⟨m, r, h1, h2, -⟩ := releases ro lv hμ x fr (n := k) (t := v) (.inl ⟨acc, hpv⟩)
              exact ⟨m, h1, by rw [h2]; rfl⟩
            | held id' c' r =>
              obtain ⟨m, r, h1, h2, -⟩ := releases ro lv hμ x fr (n := k) (t := v) (.inr ⟨r, hpv⟩)
              exact ⟨m, h1, by rw [h2]; rfl⟩
          have hpk : (e k).s.pc u = .want id c := by rw [x.still hk fun i h1 h2 => hno i h1, hp]
          have hsub := (waits ro x hpk (waits ro x hp ha hno hk).1 (fun i hi => hno i (by omega)) (m := m) (by omega)).2.2
          obtain ⟨S', inv'⟩ := (x.reach m).inv ro
          have hvm : v ∉ (e m).s.readers := fun h => by have := (inv'.readers v).1 h; rw [hout] at this; cases this
          have hlt : (e m).s.readers.length ≤ N := by
            have h1 := hsub.length_le
            rcases Nat.lt_or_ge (e m).s.readers.length (e k).s.readers.length with h2 | h2
            · omega
            · exfalso
              have := hsub.eq_of_length_le h2
              rw [this, hr] at hvm
              simp at hvm
          obtain ⟨m2, q1, q2⟩ := ih m (by omega) hlt
          exact ⟨m2, by omega, q2⟩
    obtain ⟨m, hm, hr⟩ := empty _ k hk (Nat.le_refl _)
    have hpm : (e m).s.pc u = .want id c := by rw [x.still (by omega) fun i h1 h2 => hno i h1, hp]
    obtain ⟨w1, w2, -⟩ := waits ro x hp ha hno (m := m) (by omega)
    refine ⟨m, hm, ?_⟩
    generalize e m = z at w1 w2 hr hpm
    obtain ⟨s, a⟩ := z
    simp only at w1 w2 hr hpm
    subst w1
    exact ⟨_, .lock hpm hw w2 hr⟩
  rw [hp] at h1
  have hann : (e m).ann = some u := by
    -- up to then it stays announced
    have : ∀ m, n ≤ m → (∀ k, n ≤ k → k < m → who k ≠ some u) → (e m).ann = some u := by
      intro m hm hno
      induction m, hm using Nat.le_induction with
      | base => exact ha
      | succ m hm ih =>
        have i1 := ih fun k h1 h2 => hno k h1 (by omega)
        have hpm : (e m).s.pc u = .want id c := by rw [x.still hm fun k h1 h2 => hno k h1 (by omega), hp]
        cases hwm : who m with
        | none => rw [x.rest m hwm]; exact i1
        | some v =>
          have st := x.step m v hwm
          have an := x.anns ro m
          obtain ⟨S, inv⟩ := (x.reach m).inv ro
          generalize e m = a at st i1 an inv hpm
          generalize e (m + 1) = b at st
          cases st with
          | announce h2 => cases i1
          | rlock h2 => cases i1
          | unlock h2 h3 =>
            exfalso
            have e1 := (inv.writer v).2 (by simp only; rw [h2]; simp [Pc.holds, h3])
            have e2 := an.writer v e1
            rw [i1] at e2
            cases e2
            simp only at hpm
            rw [hpm] at h2
            cases h2
          | _ => exact i1
    exact this m hm hno
  refine ⟨m + 1, by omega, ?_⟩
  generalize e m = a at h1 st hann
  generalize e (m + 1) = b at st
  cases st with
  | invoke h2 => simp only at h1; rw [h1] at h2; cases h2
  | announce h2 => cases hann
  | rlock h2 h3 => simp only at h1; rw [h1] at h2; cases h2; rw [hw] at h3; cases h3
  | lock h2 => simp only at h1; rw [h1] at h2; cases h2; simp
  | iter h2 => simp only at h1; rw [h1] at h2; cases h2
  | access h2 => simp only at h1; rw [h1] at h2; cases h2
  | runlock h2 => simp only at h1; rw [h1] at h2; cases h2
  | unlock h2 => simp only at h1; rw [h1] at h2; cases h2
  | ret h2 => simp only at h1; rw [h1] at h2; cases h2

/-- Again and again nobody is announced. -/
theorem opens (ro : ReadsOnly g) (lv : Live g) {μ : σ → C → A → Nat} (hμ : ShrinksFrom g μ) (x : Exec g e who) (fr : FairRun g e who) (k : Nat) :
    ∃ m, k ≤ m ∧ (e m).ann = none := by
  cases ha : (e k).ann with
  | none => exact ⟨k, Nat.le_refl _, ha⟩
  | some v =>
    have inside : ∀ {k id c}, g.writes c = true → ((∃ acc, (e k).s.pc v = .body id c acc) ∨ ∃ r, (e k).s.pc v = .held id c r) → ∃ m, k ≤ m ∧ (e m).ann = none := by
      intro k id c hw h
      obtain ⟨m, r, h1, -, h2⟩ := releases ro lv hμ x fr h
      exact ⟨m, by omega, h2 hw⟩
    rcases (x.anns ro k).own v ha with ⟨id, c, h1, h2⟩ | h
    · obtain ⟨m, hm, h3⟩ := locks ro lv hμ x fr h1 h2 ha
      obtain ⟨m2, q1, q2⟩ := inside h2 (.inl ⟨_, h3⟩)
      exact ⟨m2, by omega, q2⟩
    · obtain ⟨S, inv⟩ := (x.reach k).inv ro
      have hh := (inv.writer v).1 h
      cases hp : (e k).s.pc v with
      | idle => rw [hp] at hh; cases hh
      | want => rw [hp] at hh; cases hh
      | out => rw [hp] at hh; cases hh
      | body id c acc => rw [hp] at hh; exact inside (by simpa [Pc.holds] using hh) (.inl ⟨acc, hp⟩)
      | held id c r => rw [hp] at hh; exact inside (by simpa [Pc.holds] using hh) (.inr ⟨r, hp⟩)

/-- Every call gets the lock. -/
theorem enters (ro : ReadsOnly g) (lv : Live g) {μ : σ → C → A → Nat} (hμ : ShrinksFrom g μ) (x : Exec g e who) (fr : FairRun g e who) {n u id : Nat} {c : C}
    (hp : (e n).s.pc u = .want id c) : ∃ m, n < m ∧ (e m).s.pc u = .body id c g.start := by
  by_cases ha : (e n).ann = some u
  · refine locks ro lv hμ x fr hp ?_ ha
    rcases (x.anns ro n).own u ha with ⟨id', c', h1, h2⟩ | h
    · rw [hp] at h1; cases h1; exact h2
    · obtain ⟨S, inv⟩ := (x.reach n).inv ro
      have := (inv.writer u).1 h
      rw [hp] at this
      cases this
  obtain ⟨m, hm, hno, h1, st⟩ := next_step x fr (n := n) (t := u) (by rw [hp]; nofun) fun hno k hk => by
    obtain ⟨m, hm, h⟩ := opens ro lv hμ x fr k
    have hpm : (e m).s.pc u = .want id c := by rw [x.still (by omega) fun i h1 h2 => hno i h1, hp]
    have hwr : (e m).s.writer = none := by
      cases hw : (e m).s.writer with
      | none => rfl
      | some v => have := (x.anns ro m).writer v hw; rw [h] at this; cases this
    refine ⟨m, hm, ?_⟩
    generalize e m = z at h hpm hwr
    obtain ⟨s, a⟩ := z
    simp only at h hpm hwr
    subst h
    cases hw : g.writes c with
    | true => exact ⟨_, .announce hpm hw⟩
    | false => exact ⟨_, .rlock hpm hw hwr⟩
  rw [hp] at h1
  have key : (e (m + 1)).s.pc u = .body id c g.start ∨ (e (m + 1)).s.pc u = .want id c ∧ g.writes c = true ∧ (e (m + 1)).ann = some u := by
    generalize e m = a at h1 st
    generalize e (m + 1) = b at st
    cases st with
    | invoke h2 => simp only at h1; rw [h1] at h2; cases h2
    | announce h2 h3 => simp only at h1; rw [h1] at h2; cases h2; exact .inr ⟨h1, h3, rfl⟩
    | rlock h2 h3 => simp only at h1; rw [h1] at h2; cases h2; exact .inl (by simp)
    | lock h2 => simp only at h1; rw [h1] at h2; cases h2; exact .inl (by simp)
    | iter h2 => simp only at h1; rw [h1] at h2; cases h2
    | access h2 => simp only at h1; rw [h1] at h2; cases h2
    | runlock h2 => simp only at h1; rw [h1] at h2; cases h2
    | unlock h2 => simp only at h1; rw [h1] at h2; cases h2
    | ret h2 => simp only at h1; rw [h1] at h2; cases h2
  rcases key with k | ⟨k1, k2, k3⟩
  · exact ⟨m + 1, by omega, k⟩
  · obtain ⟨m2, q1, q2⟩ := locks ro lv hμ x fr k1 k2 k3
    exact ⟨m2, by omega, q2⟩

/-- Who has given the lock back returns. -/
theorem comes_out (x : Exec g e who) (fr : FairRun g e who) {n t id : Nat} {c : C} {r : R} (hp : (e n).s.pc t = .out id c r) :
    ∃ m, n < m ∧ (e m).s.pc t = .idle ∧ Event.ret id r ∈ (e m).s.hist := by
  obtain ⟨m, hm, -, h1, st⟩ := next_step x fr (n := n) (t := t) (by rw [hp]; nofun) fun hno k hk => by
    have hpk : (e k).s.pc t = .out id c r := by rw [x.still hk fun i h1 h2 => hno i h1, hp]
    refine ⟨k, Nat.le_refl _, ?_⟩
    generalize e k = z at hpk
    obtain ⟨s, a⟩ := z
    exact ⟨_, .ret hpk⟩
  rw [hp] at h1
  refine ⟨m + 1, by omega, ?_⟩
  generalize e m = a at h1 st
  generalize e (m + 1) = b at st
  cases st with
  | invoke h2 => simp only at h1; rw [h1] at h2; cases h2
  | announce h2 => simp only at h1; rw [h1] at h2; cases h2
  | rlock h2 => simp only at h1; rw [h1] at h2; cases h2
  | lock h2 => simp only at h1; rw [h1] at h2; cases h2
  | iter h2 => simp only at h1; rw [h1] at h2; cases h2
  | access h2 => simp only at h1; rw [h1] at h2; cases h2
  | runlock h2 => simp only at h1; rw [h1] at h2; cases h2
  | unlock h2 => simp only at h1; rw [h1] at h2; cases h2
  | ret h2 => simp only at h1; rw [h1] at h2; cases h2; exact ⟨by simp, by simp⟩

/-- A call that has not returned is some goroutine's. -/
theorem Reach.whose {s : St σ A C R} (h : Reach g s) {id : Nat} {c : C} (hm : Event.inv id c ∈ s.hist) :
    (∃ r, Event.ret id r ∈ s.hist) ∨ ∃ t, (s.pc t).id? = some id := by
  induction h with
  | init => cases hm
  | @step s s' hr st ih =>
    have keep : ∀ {t p}, p.id? = (s.pc t).id? → ((∃ r, Event.ret id r ∈ s.hist) ∨ ∃ t, (s.pc t).id? = some id) →
        (∃ r, Event.ret id r ∈ s.hist) ∨ ∃ u, (setPc s.pc t p u).id? = some id := by
      intro t p hid h
      rcases h with h | ⟨u, h⟩
      · exact .inl h
      · refine .inr ⟨u, ?_⟩
        by_cases e : u = t
        · subst e; rw [setPc_same, hid]; exact h
        · rw [setPc_ne _ _ e]; exact h
    cases st with
    | @invoke t c' h1 =>
      rcases List.mem_append.1 hm with hm | hm
      · rcases ih hm with ⟨r, h⟩ | ⟨u, h⟩
        · exact .inl ⟨r, List.mem_append_left _ h⟩
        · refine .inr ⟨u, ?_⟩
          have e : u ≠ t := fun e => by subst e; rw [h1] at h; cases h
          simp only
          rw [setPc_ne _ _ e]; exact h
      · simp only [List.mem_singleton, Event.inv.injEq] at hm
        obtain ⟨rfl, rfl⟩ := hm
        exact .inr ⟨t, by simp [Pc.id?]⟩
    | rlock h1 => exact keep (by rw [h1]; rfl) (ih hm)
    | lock h1 => exact keep (by rw [h1]; rfl) (ih hm)
    | iter h1 => exact keep (by rw [h1]; rfl) (ih hm)
    | access h1 => exact keep (by rw [h1]; rfl) (ih hm)
    | runlock h1 => exact keep (by rw [h1]; rfl) (ih hm)
    | unlock h1 => exact keep (by rw [h1]; rfl) (ih hm)
    | @ret t id' c' r h1 =>
      have hm' : Event.inv id c ∈ s.hist := by simpa using hm
      rcases ih hm' with ⟨r, h⟩ | ⟨u, h⟩
      · exact .inl ⟨r, List.mem_append_left _ h⟩
      · by_cases e : u = t
        · subst e
          rw [h1] at h
          cases h
          exact .inl ⟨r, by simp⟩
        · exact .inr ⟨u, by simp only; rw [setPc_ne _ _ e]; exact h⟩

/-- **Every call returns**, however many are made. -/
theorem all_calls_return (ro : ReadsOnly g) (lv : Live g) {μ : σ → C → A → Nat} (hμ : ShrinksFrom g μ) (x : Exec g e who) (fr : FairRun g e who) {n id : Nat} {c : C}
    (h : Event.inv id c ∈ (e n).s.hist) : ∃ m r, n ≤ m ∧ Event.ret id r ∈ (e m).s.hist := by
  rcases (x.reach n).whose h with ⟨r, hr⟩ | ⟨t, ht⟩
  · exact ⟨n, r, Nat.le_refl _, hr⟩
  · have fromOut : ∀ {n c r}, (e n).s.pc t = .out id c r → ∃ m r, n ≤ m ∧ Event.ret id r ∈ (e m).s.hist := fun hp => by
      obtain ⟨m, h1, -, h2⟩ := comes_out x fr hp; exact ⟨m, _, by omega, h2⟩
    have fromIn : ∀ {n c}, ((∃ acc, (e n).s.pc t = .body id c acc) ∨ ∃ r, (e n).s.pc t = .held id c r) → ∃ m r, n ≤ m ∧ Event.ret id r ∈ (e m).s.hist := fun hp => by
      obtain ⟨m, r, h1, h2, -⟩ := releases ro lv hμ x fr hp
      obtain ⟨m2, r, h3, h4⟩ := fromOut h2
      exact ⟨m2, r, by omega, h4⟩
    cases hp : (e n).s.pc t with
    | idle => rw [hp] at ht; cases ht
    | want id' c' =>
      rw [hp] at ht; cases ht
      obtain ⟨m, h1, h2⟩ := enters ro lv hμ x fr hp
      obtain ⟨m2, r, h3, h4⟩ := fromIn (.inl ⟨_, h2⟩)
      exact ⟨m2, r, by omega, h4⟩
    | body id' c' acc => rw [hp] at ht; cases ht; exact fromIn (.inl ⟨_, hp⟩)
    | held id' c' r => rw [hp] at ht; cases ht; exact fromIn (.inr ⟨_, hp⟩)
    | out id' c' r => rw [hp] at ht; cases ht; exact fromOut hp

/-! ## The lock excludes no schedule -/

/-- The first `n` steps of an execution. -/
structure Prefix (g : Guarded σ A C R) (e : Nat → FSt σ A C R) (who : Nat → Option Nat) (n : Nat) : Prop where
  exec : Exec g e who
  stop : ∀ k, n ≤ k → who k = none

theorem Prefix.stays {n k : Nat} (p : Prefix g e who n) (h : n ≤ k) : e k = e n := by
  induction k, h using Nat.le_induction with
  | base => rfl
  | succ k hk ih => rw [p.exec.rest k (p.stop k hk), ih]

theorem Prefix.more {n t : Nat} {y : FSt σ A C R} (p : Prefix g e who n) (st : FStep g t (e n) y) :
    ∃ e' who', Prefix g e' who' (n + 1) ∧ e' (n + 1) = y := by
  refine ⟨fun k => if k ≤ n then e k else y, fun k => if k = n then some t else who k, ⟨⟨?_, ?_, ?_⟩, ?_⟩, by simp⟩
  · simp [p.exec.zero]
  · intro k u h
    by_cases hk : k = n
    · subst hk
      simp only [if_true, Option.some.injEq] at h
      subst h
      simpa using st
    · simp only [if_neg hk] at h
      have : k < n := by
        by_contra hc
        rw [p.stop k (by omega)] at h
        cases h
      simp only [if_pos (show k ≤ n by omega), if_pos (show k + 1 ≤ n by omega)]
      exact p.exec.step k u h
  · intro k h
    by_cases hk : k = n
    · simp [hk] at h
    · simp only [if_neg hk] at h
      rcases Nat.lt_or_ge k n with hl | hl
      · simp only [if_pos (show k ≤ n by omega), if_pos (show k + 1 ≤ n by omega)]
        exact p.exec.rest k h
      · simp only [if_neg (show ¬ k ≤ n by omega), if_neg (show ¬ k + 1 ≤ n by omega)]
  · intro k hk
    simp only [if_neg (show ¬ k = n by omega)]
    exact p.stop k (by omega)

/-- Every state of the object comes up, also with this lock. -/
theorem Reach.prefix {s : St σ A C R} (h : Reach g s) : ∃ e who n, Prefix g e who n ∧ e n = ⟨s, s.writer⟩ := by
  induction h with
  | init => exact ⟨fun _ => ⟨start g, none⟩, fun _ => none, 0, ⟨⟨rfl, fun _ _ h => (by cases h), fun _ _ => rfl⟩, fun _ _ => rfl⟩, rfl⟩
  | @step s s' hr st ih =>
    obtain ⟨e, who, n, p, hn⟩ := ih
    have one : ∀ {t y}, FStep g t ⟨s, s.writer⟩ y → ∃ e who n, Prefix g e who n ∧ e n = y := fun fs => by
      obtain ⟨e', w', p', h'⟩ := p.more (hn ▸ fs)
      exact ⟨e', w', _, p', h'⟩
    cases st with
    | invoke h1 => exact one (.invoke h1)
    | rlock h1 h2 h3 =>
      rw [h3] at one
      have := one (.rlock h1 h2 h3)
      simp only [h3] at this ⊢
      exact this
    | lock h1 h2 h3 h4 =>
      rw [h3] at one
      obtain ⟨e1, w1, n1, p1, hn1⟩ := one (.announce h1 h2)
      obtain ⟨e2, w2, p2, hn2⟩ := p1.more (hn1 ▸ FStep.lock h1 h2 h3 h4)
      exact ⟨e2, w2, _, p2, hn2⟩
    | iter h1 h2 => exact one (.iter h1 h2)
    | access h1 h2 => exact one (.access h1 h2)
    | runlock h1 h2 => exact one (.runlock h1 h2)
    | unlock h1 h2 => exact one (.unlock h1 h2)
    | ret h1 => exact one (.ret h1)

theorem Prefix.fair {n : Nat} (p : Prefix g e who n) (h : ∀ t, (e n).s.pc t = .idle) : FairRun g e who := by
  intro k t hk _
  by_contra hc
  have hno : ∀ m, k ≤ m → who m ≠ some t := fun m hm hw => hc ⟨m, hm, hw⟩
  rcases Nat.lt_or_ge k n with hl | hl
  · rw [← p.exec.still (Nat.le_of_lt hl) fun i h1 _ => hno i h1] at hk
    exact hk (h t)
  · rw [p.stays hl] at hk
    exact hk (h t)

/-- A schedule that ends with no call open is part of a fair execution. -/
theorem fair_runs {s : St σ A C R} (h : Reach g s) (hi : ∀ t, s.pc t = .idle) : ∃ e who n, Exec g e who ∧ FairRun g e who ∧ (e n).s = s := by
  obtain ⟨e, who, n, p, hn⟩ := h.prefix
  exact ⟨e, who, n, p.exec, p.fair (by rw [hn]; exact hi), by rw [hn]⟩

end Verif.Conc.RW
