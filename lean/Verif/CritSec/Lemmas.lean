import Verif.CritSec.Spec
/-!
# Lemmas for C172
-/
set_option linter.unusedSectionVars false
namespace Verif.CritSec
open Verif.Go Verif.Conc Verif.Conc.RW Verif.Conc.Sect Relation

variable {K V P : Type} [GoOrdered K] [LawfulOrdered K] [DecidableEq K] [Inhabited K] [Inhabited V] {seed : BitVec 64}

/-- The calls that read leave a mathematical map alone. -/
theorem skl_reads (u : K → Option V) (c : SklShare.Call K V) (x : SklShare.Res K V) (u' : K → Option V) (h : (SklShare.shared K V seed).writes c = false)
    (st : (SklShare.mapObj K V).step u c x u') : u' = u := by
  cases c <;> first | exact st.2 | (simp [SklShare.shared, SklShare.writes] at h)

/-! ## Bank -/

variable {k1 k2 : K}

/-- The states of an audit. -/
def auditing : Bank → Prop
  | .audit _ _ => True
  | .a1 _ _ _ => True
  | .a2 _ _ _ _ => True
  | _ => False

theorem bank_honest : Honest (SklShare.shared K Int seed) (bank k1 k2) auditing where
  enter := by
    intro q h
    match q with
    | .audit _ _ => trivial
    | .todo [] => simp [bank] at h
    | .todo (_ :: _) => simp [bank] at h
    | .t1 .. => simp [bank] at h
    | .t2 .. => simp [bank] at h
    | .t3 .. => simp [bank] at h
    | .t4 .. => simp [bank] at h
    | .a1 .. => trivial
    | .a2 .. => trivial
  reads := by
    intro q c hr h
    match q with
    | .audit _ 0 => simp [bank] at h
    | .audit _ (_ + 1) => simp [bank] at h; subst h; rfl
    | .todo _ => exact hr.elim
    | .t1 .. => exact hr.elim
    | .t2 .. => exact hr.elim
    | .t3 .. => exact hr.elim
    | .t4 .. => exact hr.elim
    | .a1 .. => simp [bank] at h; subst h; rfl
    | .a2 .. => simp [bank] at h
  stays := by
    intro q r hr h
    match q with
    | .audit _ 0 => trivial
    | .audit _ (_ + 1) => trivial
    | .todo _ => exact hr.elim
    | .t1 .. => exact hr.elim
    | .t2 .. => exact hr.elim
    | .t3 .. => exact hr.elim
    | .t4 .. => exact hr.elim
    | .a1 .. => trivial
    | .a2 .. => trivial

/-- The calls a goroutine has before it. -/
def Bank.rank : Bank → Nat
  | .todo xs => 4 * xs.length
  | .t1 _ xs _ => 4 * xs.length + 3
  | .t2 _ xs _ _ => 4 * xs.length + 2
  | .t3 _ xs _ => 4 * xs.length + 1
  | .t4 xs => 4 * xs.length
  | .audit _ n => 2 * n
  | .a1 _ n _ => 2 * n + 1
  | .a2 _ n _ _ => 2 * n

theorem bank_bounded : Bounded (bank k1 k2) Bank.rank where
  call := by
    intro q c r h
    match q with
    | .todo [] => simp [bank] at h
    | .todo (_ :: _) => simp [bank, Bank.rank]; omega
    | .t1 .. => simp [bank, Bank.rank]
    | .t2 .. => simp [bank, Bank.rank]
    | .t3 .. => simp [bank, Bank.rank]
    | .t4 .. => simp [bank] at h
    | .audit _ 0 => simp [bank] at h
    | .audit _ (_ + 1) => simp [bank, Bank.rank]; omega
    | .a1 .. => simp [bank, Bank.rank]
    | .a2 .. => simp [bank] at h
  leave := by
    intro q
    match q with
    | .todo _ => exact Nat.le_refl _
    | .t1 .. => exact Nat.le_refl _
    | .t2 .. => exact Nat.le_refl _
    | .t3 .. => exact Nat.le_refl _
    | .t4 .. => exact Nat.le_refl _
    | .audit .. => exact Nat.le_refl _
    | .a1 .. => exact Nat.le_refl _
    | .a2 .. => exact Nat.le_refl _
  some := by
    intro q w h
    match q with
    | .todo [] => simp [bank] at h
    | .todo (_ :: _) => simp [bank]
    | .t1 .. => simp [bank]
    | .t2 .. => simp [bank]
    | .t3 .. => simp [bank]
    | .t4 .. => simp [bank] at h
    | .audit _ 0 => simp [bank] at h
    | .audit _ (_ + 1) => simp [bank]
    | .a1 .. => simp [bank]
    | .a2 .. => simp [bank] at h

/-- Where a section is that began with balances `a0` and `b0`. -/
def At (k1 k2 : K) (a0 b0 : Int) (q0 : Bank) (m : K → Option Int) (q : Bank) : Prop :=
  match q with
  | .todo xs => q0 = .todo xs ∧ bal m k1 = a0 ∧ bal m k2 = b0
  | .t1 x xs a => q0 = .todo (x :: xs) ∧ bal m k1 = a0 ∧ bal m k2 = b0 ∧ a = a0
  | .t2 x xs a b => q0 = .todo (x :: xs) ∧ bal m k1 = a0 ∧ bal m k2 = b0 ∧ a = a0 ∧ b = b0
  | .t3 x xs b => q0 = .todo (x :: xs) ∧ bal m k1 = a0 - x ∧ bal m k2 = b0 ∧ b = b0
  | .t4 xs => ∃ x, q0 = .todo (x :: xs) ∧ bal m k1 = a0 - x ∧ bal m k2 = b0 + x
  | .audit seen n => q0 = .audit seen n ∧ bal m k1 = a0 ∧ bal m k2 = b0
  | .a1 seen n a => q0 = .audit seen (n + 1) ∧ bal m k1 = a0 ∧ bal m k2 = b0 ∧ a = a0
  | .a2 seen n a b => q0 = .audit seen (n + 1) ∧ bal m k1 = a0 ∧ bal m k2 = b0 ∧ a = a0 ∧ b = b0

theorem at_step (hk : k1 ≠ k2) {a0 b0 : Int} {q0 : Bank} {x y : (K → Option Int) × Bank} (h : At k1 k2 a0 b0 q0 x.1 x.2)
    (st : CallStep (SklShare.mapObj K Int) (bank k1 k2) x y) : At k1 k2 a0 b0 q0 y.1 y.2 := by
  obtain ⟨m, q⟩ := x
  obtain ⟨m', q'⟩ := y
  obtain ⟨c, r, hc, hst, hq⟩ := st
  simp only at hc hst hq h
  subst hq
  match q with
  | .todo [] => cases hc
  | .todo (x :: xs) =>
    cases hc
    obtain ⟨rfl, rfl⟩ := hst
    obtain ⟨rfl, rfl, rfl⟩ := h
    exact ⟨rfl, rfl, rfl, rfl⟩
  | .t1 x xs a =>
    cases hc
    obtain ⟨rfl, rfl⟩ := hst
    obtain ⟨rfl, rfl, rfl, rfl⟩ := h
    exact ⟨rfl, rfl, rfl, rfl, rfl⟩
  | .t2 x xs a b =>
    cases hc
    obtain ⟨rfl, rfl⟩ := hst
    obtain ⟨rfl, h1, h2, rfl, rfl⟩ := h
    refine ⟨rfl, ?_, ?_, rfl⟩
    · simp [bal]
    · simp only [bal] at h2 ⊢; rw [if_neg (Ne.symm hk)]; exact h2
  | .t3 x xs b =>
    cases hc
    obtain ⟨rfl, rfl⟩ := hst
    obtain ⟨rfl, h1, h2, rfl⟩ := h
    refine ⟨x, rfl, ?_, ?_⟩
    · simp only [bal] at h1 ⊢; rw [if_neg hk]; exact h1
    · simp [bal]
  | .t4 xs => cases hc
  | .audit _ 0 => cases hc
  | .audit seen (n + 1) =>
    cases hc
    obtain ⟨rfl, rfl⟩ := hst
    obtain ⟨rfl, rfl, rfl⟩ := h
    exact ⟨rfl, rfl, rfl, rfl⟩
  | .a1 seen n a =>
    cases hc
    obtain ⟨rfl, rfl⟩ := hst
    obtain ⟨rfl, rfl, rfl, rfl⟩ := h
    exact ⟨rfl, rfl, rfl, rfl, rfl⟩
  | .a2 .. => cases hc

theorem at_path (hk : k1 ≠ k2) {a0 b0 : Int} {q0 : Bank} {x y : (K → Option Int) × Bank} (h : At k1 k2 a0 b0 q0 x.1 x.2)
    (st : ReflTransGen (CallStep (SklShare.mapObj K Int) (bank k1 k2)) x y) : At k1 k2 a0 b0 q0 y.1 y.2 := by
  induction st with
  | refl => exact h
  | tail _ st ih => exact at_step hk ih st

/-- What holds between sections: nothing is lost, and the audits saw nothing missing. -/
structure Books (k1 k2 : K) (N : Nat) (total : Int) (m : K → Option Int) (l : Nat → Bank) : Prop where
  even : bal m k1 + bal m k2 = 0
  moved : bal m k2 + ∑ t ∈ Finset.range N, (l t).left = total
  outs : ∀ t, (∃ xs, l t = .todo xs) ∨ ∃ seen n, l t = .audit seen n ∧ ∀ e ∈ seen, e.1 + e.2 = 0

theorem sum_set (l : Nat → Bank) (t : Nat) (q : Bank) {N : Nat} (h : t < N) :
    ∑ u ∈ Finset.range N, (setLoc l t q u).left = ∑ u ∈ Finset.range N, (l u).left - (l t).left + q.left := by
  have ht : t ∈ Finset.range N := Finset.mem_range.2 h
  rw [← Finset.add_sum_erase _ _ ht, ← Finset.add_sum_erase _ (fun u => (l u).left) ht, setLoc_same]
  have : ∑ u ∈ (Finset.range N).erase t, (setLoc l t q u).left = ∑ u ∈ (Finset.range N).erase t, (l u).left :=
    Finset.sum_congr rfl fun u hu => by rw [setLoc_ne _ _ (Finset.ne_of_mem_erase hu)]
  rw [this]
  omega

theorem books (hk : k1 ≠ k2) {l : Nat → Bank} {N : Nat} (hN : ∀ t, N ≤ t → (bank k1 k2).enters (l t) = none) (hl : ∀ t, (l t).Fresh)
    {a : (K → Option Int) × (Nat → Bank)} (h : SerReach (SklShare.mapObj K Int) (bank k1 k2) l a) :
    Books k1 k2 N (∑ t ∈ Finset.range N, (l t).left) a.1 a.2 := by
  induction h with
  | start =>
    refine ⟨rfl, ?_, fun t => ?_⟩
    · simp [SklShare.mapObj, bal]
    · rcases hl t with h | ⟨n, h⟩
      · exact .inl h
      · exact .inr ⟨[], n, h, by simp⟩
  | @step a b t hr st ih =>
    cases st with
    | @mk m l' w m' q h1 h2 h3 _ =>
      have ht : t < N := by
        by_contra hc
        have e := idle_ser hr (hN t (by omega))
        simp only at e; rw [e, hN t (by omega)] at h1; cases h1
      have hat : At k1 k2 (bal m k1) (bal m k2) (l' t) m (l' t) := by
        rcases ih.outs t with ⟨xs, e⟩ | ⟨seen, n, e, _⟩
        · simp only at e; rw [e]; exact ⟨rfl, rfl, rfl⟩
        · simp only at e; rw [e]; exact ⟨rfl, rfl, rfl⟩
      have hq := at_path hk (x := (m, l' t)) hat h2
      simp only at hq
      have ev := ih.even
      have mv := ih.moved
      simp only at ev mv
      have others : ∀ u, u ≠ t → (∃ xs, l' u = .todo xs) ∨ ∃ seen n, l' u = .audit seen n ∧ ∀ e ∈ seen, e.1 + e.2 = 0 := fun u _ => ih.outs u
      match q with
      | .todo [] =>
        obtain ⟨e, _, _⟩ := hq
        rw [e] at h1; cases h1
      | .todo (_ :: _) => cases h3
      | .t1 .. => cases h3
      | .t2 .. => cases h3
      | .t3 .. => cases h3
      | .t4 xs =>
        obtain ⟨x, e, e1, e2⟩ := hq
        refine ⟨by simp only; omega, ?_, fun u => ?_⟩
        · have h5 := sum_set l' t (.todo xs) ht
          rw [e] at h5
          simp only [Bank.left, List.sum_cons] at h5
          show bal m' k2 + ∑ u ∈ Finset.range N, (setLoc l' t (.todo xs) u).left = _
          simp only [Bank.left] at mv ⊢
          omega
        · by_cases hu : u = t
          · subst hu; exact .inl ⟨xs, by simp [bank]⟩
          · simp only [setLoc_ne _ _ hu]; exact others u hu
      | .audit _ 0 =>
        obtain ⟨e, _, _⟩ := hq
        rw [e] at h1; cases h1
      | .audit _ (_ + 1) => cases h3
      | .a1 .. => cases h3
      | .a2 seen n a b =>
        obtain ⟨e, e1, e2, rfl, rfl⟩ := hq
        refine ⟨by simp only; omega, ?_, fun u => ?_⟩
        · have h5 := sum_set l' t (.audit (seen ++ [(bal m k1, bal m k2)]) n) ht
          rw [e] at h5
          simp only [Bank.left] at h5
          show bal m' k2 + ∑ u ∈ Finset.range N, (setLoc l' t (.audit (seen ++ [(bal m k1, bal m k2)]) n) u).left = _
          simp only [Bank.left] at mv ⊢
          omega
        · by_cases hu : u = t
          · subst hu
            refine .inr ⟨seen ++ [(bal m k1, bal m k2)], n, by simp [bank], ?_⟩
            rcases ih.outs u with ⟨xs, e'⟩ | ⟨seen', n', e', h4⟩
            · simp only at e'; rw [e] at e'; cases e'
            · simp only at e'; rw [e] at e'; cases e'
              intro y hy
              rcases List.mem_append.1 hy with hy | hy
              · exact h4 y hy
              · simp at hy; rw [hy]; exact ev
          · simp only [setLoc_ne _ _ hu]; exact others u hu

/-! ## Get or create -/

theorem make_honest {k : K} : Honest (SklShare.shared K V seed) (make k) (fun _ => False) where
  enter := by intro q h; cases q <;> cases h
  reads := by intro q c h; exact h.elim
  stays := by intro q r h; exact h.elim

def Make.rank : Make V → Nat
  | .ask _ => 2
  | .put _ => 1
  | _ => 0

theorem make_bounded {k : K} : Bounded (make (V := V) k) Make.rank where
  call := by
    intro q c r h
    cases q with
    | ask v =>
      show Make.rank ((make k).resume (.ask v) r) < 2
      simp only [make]
      split <;> simp_all [Make.rank]
    | put v => exact Nat.zero_lt_one
    | «have» v => cases h
    | done v => cases h
  leave := by intro q; cases q <;> exact Nat.le_refl _
  some := by intro q w h; cases q <;> first | (cases h; done) | nofun

/-- Where a section is that began with the value `o`. -/
def AtMake (k : K) (o : Option V) (v0 : V) (m : K → Option V) : Make V → Prop
  | .ask v => v = v0 ∧ m k = o
  | .put v => v = v0 ∧ m k = o ∧ o = none
  | .have v => m k = some v ∧ (o = some v ∨ o = none ∧ v = v0)
  | .done _ => False

theorem atMake_path {k : K} {o : Option V} {v0 : V} {x y : (K → Option V) × Make V} (h : AtMake k o v0 x.1 x.2)
    (st : ReflTransGen (CallStep (SklShare.mapObj K V) (make k)) x y) : AtMake k o v0 y.1 y.2 := by
  induction st with
  | refl => exact h
  | @tail y z _ st ih =>
    obtain ⟨m, q⟩ := y
    obtain ⟨m', q'⟩ := z
    obtain ⟨c, r, hc, hst, hq⟩ := st
    simp only at hc hst hq ih
    subst hq
    cases q with
    | ask v =>
      cases hc
      obtain ⟨rfl, rfl⟩ := hst
      obtain ⟨rfl, rfl⟩ := ih
      cases e : m' k with
      | none => exact ⟨rfl, e, rfl⟩
      | some u => exact ⟨e, .inl rfl⟩
    | put v =>
      cases hc
      obtain ⟨rfl, rfl⟩ := hst
      obtain ⟨rfl, e, e'⟩ := ih
      exact ⟨by simp, .inr ⟨e', rfl⟩⟩
    | «have» v => cases hc
    | done v => cases hc

/-- What holds between sections: the value that is there was proposed, and everybody has it. -/
structure Made (k : K) (l0 : Nat → Make V) (m : K → Option V) (l : Nat → Make V) : Prop where
  from_ask : ∀ v, m k = some v → ∃ t, l0 t = .ask v
  outs : ∀ t, l t = l0 t ∧ (∃ v, l t = .ask v) ∨ ∃ v, l t = .done v ∧ m k = some v

theorem made {k : K} {l : Nat → Make V} (hl : ∀ t, ∃ v, l t = .ask v) {a : (K → Option V) × (Nat → Make V)}
    (h : SerReach (SklShare.mapObj K V) (make k) l a) : Made k l a.1 a.2 := by
  induction h with
  | start => exact ⟨fun v h => (by cases h), fun t => .inl ⟨rfl, hl t⟩⟩
  | @step a b t hr st ih =>
    cases st with
    | @mk m l' w m' q h1 h2 h3 _ =>
      have ho := ih.outs
      have hf := ih.from_ask
      simp only at ho hf
      rcases ho t with ⟨e, v, e'⟩ | ⟨v, e, _⟩
      · have hq := atMake_path (x := (m, l' t)) (k := k) (o := m k) (v0 := v) (by simp only; rw [e']; exact ⟨rfl, rfl⟩) h2
        simp only at hq
        cases q with
        | ask v => cases h3
        | put v => cases h3
        | done v => exact hq.elim
        | «have» u =>
          obtain ⟨e1, e2⟩ := hq
          refine ⟨fun x hx => ?_, fun s => ?_⟩
          · simp only at hx
            rw [e1] at hx; cases hx
            rcases e2 with e2 | ⟨_, rfl⟩
            · exact hf _ e2
            · exact ⟨t, by rw [← e, e']⟩
          · by_cases hs : s = t
            · subst hs; exact .inr ⟨u, by simp [make], e1⟩
            · simp only [setLoc_ne _ _ hs]
              rcases ho s with h | ⟨x, h4, h5⟩
              · exact .inl h
              · refine .inr ⟨x, h4, ?_⟩
                rw [h5] at e2
                rcases e2 with e2 | ⟨e2, _⟩
                · cases e2; exact e1
                · cases e2
      · rw [e] at h1; cases h1

/-! ## Stack -/

open Verif.HandOut in
/-- A section of `wrap p` on the linked stack is one call of `p` on a stack. -/
theorem wrap_ser {T : Type} [Inhabited T] {p : Client P (Dsx.SOp T) (Linked.Res T)} {t : Nat} {x : List T} {l : Nat → P} {b : List T × (Nat → Wrap T P)}
    (st : Ser (lifoBelow T) (wrap p) t (x, fun u => .out (l u)) b) :
    ∃ y l', AStep (lifo T) p t (x, l) (y, l') ∧ b = (y, fun u => .out (l' u)) := by
  generalize ha : ((x, fun u => Wrap.out (l u)) : List T × (Nat → Wrap T P)) = a at st
  cases st with
  | @mk m l0 w m' q h1 h2 h3 h4 =>
    cases ha
    have key : ∀ y : List T × Wrap T P, ReflTransGen (CallStep (lifoBelow T) (wrap p)) (x, .out (l t)) y →
        y = (x, .out (l t)) ∨
        (∃ v rest, p.call (l t) = some .pop ∧ x = v :: rest ∧ y = (x, .seen (l t) (.val v))) ∨
        ∃ c r, p.call (l t) = some c ∧ (lifo T).step x c r y.1 ∧ y.2 = .done (l t) r := by
      intro y hy
      induction hy with
      | refl => exact .inl rfl
      | @tail y z _ st ih =>
        obtain ⟨c, r, hc, hst, hq⟩ := st
        obtain ⟨z1, z2⟩ := z
        simp only at hst hq
        rcases ih with rfl | ⟨v, rest, e1, e2, rfl⟩ | ⟨c', r', e1, e2, e3⟩
        · simp only at hc hst hq
          cases e : p.call (l t) with
          | none => simp [wrap, e] at hc
          | some c0 =>
            cases c0 with
            | pop =>
              simp only [wrap, e] at hc hq
              cases hc
              obtain ⟨rfl, ⟨rfl, rfl⟩ | ⟨v, rest, rfl, rfl⟩⟩ := hst
              · exact .inr (.inr ⟨.pop, .none, rfl, .inl ⟨rfl, rfl, rfl⟩, hq⟩)
              · exact .inr (.inl ⟨v, rest, rfl, rfl, by rw [hq]⟩)
            | push v =>
              simp only [wrap, e] at hc hq
              cases hc
              exact .inr (.inr ⟨_, r, rfl, hst, hq⟩)
            | peek =>
              simp only [wrap, e] at hc hq
              cases hc
              exact .inr (.inr ⟨_, r, rfl, hst, hq⟩)
            | len =>
              simp only [wrap, e] at hc hq
              cases hc
              exact .inr (.inr ⟨_, r, rfl, hst, hq⟩)
        · simp only [wrap] at hc hq
          cases hc
          simp only at hst
          refine .inr (.inr ⟨.pop, .val v, e1, ?_, hq⟩)
          subst e2
          rcases hst with ⟨_, h, _⟩ | ⟨u, _, h, rfl⟩ | ⟨u, w, rs, _, h, rfl⟩
          · cases h
          · cases h; exact .inr ⟨v, rfl, rfl⟩
          · cases h; exact .inr ⟨v, rfl, rfl⟩
        · rw [e3] at hc; cases hc
    rcases key _ h2 with e | ⟨v, rest, _, _, e⟩ | ⟨c, r, e1, e2, e3⟩
    · cases e
      simp only [wrap, Option.map_eq_some_iff] at h1
      obtain ⟨c, hc, _⟩ := h1
      cases c <;> simp [wrap, hc] at h3
    · cases e; cases h3
    · simp only at e2 e3
      subst e3
      refine ⟨m', _, .mk e1 e2, ?_⟩
      congr 1
      funext u
      simp only [setLoc]
      split <;> rfl

open Verif.HandOut in
theorem wrap_ser_reach {T : Type} [Inhabited T] {p : Client P (Dsx.SOp T) (Linked.Res T)} {l : Nat → P} {b : List T × (Nat → Wrap T P)}
    (h : SerReach (lifoBelow T) (wrap p) (fun t => .out (l t)) b) : ∃ y l', AReach (lifo T) p l (y, l') ∧ b = (y, fun u => .out (l' u)) := by
  induction h with
  | start => exact ⟨_, l, .start, rfl⟩
  | step _ st ih =>
    obtain ⟨y, l', h1, rfl⟩ := ih
    obtain ⟨z, l'', h2, e⟩ := wrap_ser st
    exact ⟨z, l'', h1.step h2, e⟩

theorem wrap_honest {T : Type} [Inhabited T] {p : Client P (Dsx.SOp T) (Linked.Res T)} : Honest (HandOut.linkedStack T) (wrap p) (fun _ => False) where
  enter := by
    intro q h
    cases q with
    | out q => simp [wrap] at h
    | seen _ _ => cases h
    | done _ _ => cases h
  reads := by intro q c h; exact h.elim
  stays := by intro q r h; exact h.elim

end Verif.CritSec
