import Verif.Conc.Client
import Verif.SklShare.Lemmas
import Verif.OrdShare.Lemmas
/-!
# C170: programs that share a skip-list map or an ordered map behind an RWMutex

A program is any `Client`: local states of any type, the next call by the local state, the new local state by the result. `CReach` runs the programs
of all goroutines with the mutex and with the calls node by node (`Verif.SklShare.shared`, `Verif.OrdShare.shared`); `AReach` runs them with every
call made at once on a mathematical map (`mapObj`, C144, C153).
-/
set_option linter.unusedSectionVars false
namespace Verif.ShareProg
open Verif.Go Verif.Conc Verif.Conc.RW Relation

variable {K V P : Type} [GoOrdered K] [LawfulOrdered K] [DecidableEq K] [Inhabited K] [Inhabited V] {seed : BitVec 64} {l : Nat → P}

section
open Verif.SklShare
variable {p : Client P (Call K V) (Res K V)}

/-- **C170.** Whatever the programs do: every state they reach is reached with every call made at once on a mathematical map, each goroutine being
where it will be when the call it is in returns if that has had its effect, and where it was before it otherwise. -/
theorem C170_atomic {s : CSt _ (Loc K V) _ _ P} (h : CReach (shared K V seed) p l s) :
    ∃ m, AReach (mapObj K V) p l (m, fun t => view p (s.loc t) (s.obj.pc t)) ∧ Agree s.obj.m m :=
  areach_sim (o := seqObj (shared K V seed)) (o' := mapObj K V) Agree ⟨[], rfl, rfl⟩ sim_step (atomic readsOnly h)

/-- **C170, no deadlock and no panic.** When no goroutine can go on all have come to the end of their programs. -/
theorem C170_stuck {s : CSt _ (Loc K V) _ _ P} (h : CReach (shared K V seed) p l s) (hn : ¬ ∃ s', CStep (shared K V seed) p s s') (t : Nat) :
    s.obj.pc t = .idle ∧ p.call (s.loc t) = none := stuck readsOnly live h hn t

/-- **C170, an end.** Programs of finitely many goroutines that end when every call is made at once end. -/
theorem C170_ends {N : Nat} (hN : ∀ t, N ≤ t → p.call (l t) = none)
    (ha : ∀ x, AReach (mapObj K V) p l x → Acc (fun b a => ∃ t, AStep (mapObj K V) p t a b) x)
    {s : CSt _ (Loc K V) _ _ P} (h : CReach (shared K V seed) p l s) : Acc (fun s' s => CStep (shared K V seed) p s s') s := by
  obtain ⟨m, h1, h2⟩ := C170_atomic h
  exact client_ends' readsOnly shrinks hN h (acc_sim (o := seqObj (shared K V seed)) (o' := mapObj K V) Agree sim_step (a := (m, _)) h2 (ha _ h1))

end

section
open Verif.OrdShare
variable {p : Client P (Call K V) (Res K V)}

/-- **C170, ordered maps.** -/
theorem C170_atomic_ord {s : CSt _ (Loc K V) _ _ P} (h : CReach (shared K V seed) p l s) :
    ∃ m, AReach (mapObj K V) p l (m, fun t => view p (s.loc t) (s.obj.pc t)) ∧ Agree s.obj.m m :=
  areach_sim (o := seqObj (shared K V seed)) (o' := mapObj K V) Agree ⟨[], rfl, rfl⟩ sim_step (atomic readsOnly h)

theorem C170_stuck_ord {s : CSt _ (Loc K V) _ _ P} (h : CReach (shared K V seed) p l s) (hn : ¬ ∃ s', CStep (shared K V seed) p s s') (t : Nat) :
    s.obj.pc t = .idle ∧ p.call (s.loc t) = none := stuck readsOnly live h hn t

theorem C170_ends_ord {N : Nat} (hN : ∀ t, N ≤ t → p.call (l t) = none)
    (ha : ∀ x, AReach (mapObj K V) p l x → Acc (fun b a => ∃ t, AStep (mapObj K V) p t a b) x)
    {s : CSt _ (Loc K V) _ _ P} (h : CReach (shared K V seed) p l s) : Acc (fun s' s => CStep (shared K V seed) p s s') s := by
  obtain ⟨m, h1, h2⟩ := C170_atomic_ord h
  exact client_ends' readsOnly shrinks hN h (acc_sim (o := seqObj (shared K V seed)) (o' := mapObj K V) Agree sim_step (a := (m, _)) h2 (ha _ h1))

end

/-! ## A case: one sets, the other waits for it -/

/-- `m.Set(1, 10)`, and `for !ok { v, ok = m.Get(1) }`. -/
inductive Wait where
  | set
  | poll
  | done (v : Option Int)

def wait : Client Wait (SklShare.Call Int Int) (SklShare.Res Int Int) where
  call
    | .set => some (.set 1 10)
    | .poll => some (.get 1)
    | .done _ => none
  resume
    | .set, _ => .done none
    | .poll, .val (some v) => .done (some v)
    | q, _ => q

/-- Whatever the schedule, who waits gets 10 and nothing else. -/
theorem C170_wait {s : CSt _ (SklShare.Loc Int Int) _ _ Wait}
    (h : CReach (SklShare.shared Int Int seed) wait (fun t => if t = 0 then .set else if t = 1 then .poll else .done none) s) {v : Int}
    (hv : s.loc 1 = .done (some v)) : v = 10 := by
  obtain ⟨m, h1, -⟩ := C170_atomic h
  have hi : s.obj.pc 1 = .idle := by
    have hc : wait.call (s.loc 1) = none := by rw [hv]; rfl
    cases e : s.obj.pc 1 with
    | idle => rfl
    | want _ c => have := h.calls (t := 1) (c := c) (by rw [e]; rfl); rw [hc] at this; cases this
    | body _ c _ => have := h.calls (t := 1) (c := c) (by rw [e]; rfl); rw [hc] at this; cases this
    | held _ c _ => have := h.calls (t := 1) (c := c) (by rw [e]; rfl); rw [hc] at this; cases this
    | out _ c _ => have := h.calls (t := 1) (c := c) (by rw [e]; rfl); rw [hc] at this; cases this
  have key : ∀ x, AReach (SklShare.mapObj Int Int) wait (fun t => if t = 0 then .set else if t = 1 then .poll else .done none) x →
      (x.1 1 = none ∨ x.1 1 = some 10) ∧ ∀ t v, x.2 t = .done (some v) → v = 10 := by
    intro x hx
    induction hx with
    | start => exact ⟨.inl rfl, fun t v h => by simp only at h; split at h <;> (try split at h) <;> cases h⟩
    | @step a b t _ st ih =>
      cases st with
      | @mk m lo c r m' hc hst =>
        obtain ⟨i1, i2⟩ := ih
        simp only at i1 i2 ⊢
        match hl : lo t with
        | .done v => rw [hl] at hc; cases hc
        | .set =>
          rw [hl] at hc; cases hc
          obtain ⟨rfl, rfl⟩ := hst
          refine ⟨.inr (if_pos rfl), fun u v hu => ?_⟩
          by_cases e : u = t
          · subst e; rw [setLoc_same] at hu; cases hu
          · rw [setLoc_ne _ _ e] at hu; exact i2 u v hu
        | .poll =>
          rw [hl] at hc; cases hc
          obtain ⟨rfl, rfl⟩ := hst
          refine ⟨i1, fun u v hu => ?_⟩
          by_cases e : u = t
          · subst e
            rw [setLoc_same] at hu
            rcases i1 with e1 | e1 <;> rw [e1] at hu <;> cases hu
            rfl
          · rw [setLoc_ne _ _ e] at hu; exact i2 u v hu
  exact (key _ h1).2 1 v (by simp only [hi]; exact hv)

/-- And it can get it. -/
example : ∃ s, CReach (SklShare.shared Int Int 0#64) wait (fun t => if t = 0 then .set else if t = 1 then .poll else .done none) s ∧ s.loc 0 = .done none := by
  have h := AReach.start (o := seqObj (SklShare.shared Int Int 0#64)) (p := wait) (l := fun t => if t = 0 then .set else if t = 1 then .poll else .done none)
  obtain ⟨w, nodes, e, _⟩ := Skl.run_rep (K := Int) (V := Int) 0#64 [.set 1 10]
  have e' : Skl.set (Skl.new 0#64 : Skl.World Int Int) 1 10 = .ret w := by
    cases hs : Skl.set (Skl.new 0#64 : Skl.World Int Int) 1 10 <;> simp_all [Skl.run, Skl.step]
  have hf : SklShare.Finish (⟨Skl.new 0#64, [], rfl⟩ : SklShare.Mem Int Int 0#64) (.set 1 10) .start .unit ⟨w, _, e⟩ := .set e'
  have hst : (seqObj (SklShare.shared Int Int 0#64)).step ⟨Skl.new 0#64, [], rfl⟩ (.set 1 10) .unit ⟨w, _, e⟩ := ⟨.start, .refl, hf⟩
  replace h := h.step (t := 0) (.mk rfl hst)
  obtain ⟨s, h1, _, h3, _⟩ := sequential h
  exact ⟨s, h1, by rw [h3]; rfl⟩

end Verif.ShareProg
