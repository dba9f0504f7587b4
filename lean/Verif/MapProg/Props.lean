import Verif.Conc.Client
import Verif.SyncKey.Lemmas
/-!
# C166: programs that use a concurrent map

A program is any `Client`: local states of any type, the next call by the local state, the new local state by the result. `CReach` runs the
programs of all goroutines with the locks and loops of `syncmapx` (`Verif.SyncKey.syncmap`); `AReach` runs them with every call made at once on
the history of the calls (`Verif.SyncKey.histObj`, C106).
-/
namespace Verif.MapProg
open Verif.Conc Verif.Conc.RW Verif.SyncMap Verif.SyncAny Verif.SyncKey

variable {K V P : Type} [Inhabited V] {eq : K → K → Bool} {p : Client P (Call K V) (Res K V)} {l : Nat → P}

/-- **C166.** Whatever the programs do: every state they reach is reached with every call made at once, each goroutine being where it will be
when the call it is in returns if that has had its effect, and where it was before it otherwise. -/
theorem C166_atomic (pe : PartialEq eq) {s : CSt _ (List (K × V)) _ _ P} (h : CReach (syncmap eq) p l s) :
    ∃ hist, AReach (histObj eq) p l (hist, fun t => view p (s.loc t) (s.obj.pc t)) ∧ s.obj.m = run eq hist :=
  areach_sim (o := seqObj (syncmap eq)) (o' := histObj eq) (fun m hist => m = run eq hist) rfl
    (fun m m' c r hist e st => by subst e; exact sim_step pe hist c r m' st) (atomic readsOnly h)

/-- **C166, between two moments.** From any moment on: whatever calls have brought the map to where it is, the rest is whole calls after them. -/
theorem C166_from (pe : PartialEq eq) {s s' : CSt _ (List (K × V)) _ _ P} (h : CReach (syncmap eq) p l s)
    (hs : Relation.ReflTransGen (CStep (syncmap eq) p) s s') {hist : List (Op K V)} (hm : s.obj.m = run eq hist) :
    ∃ hist', s'.obj.m = run eq hist' ∧ Relation.ReflTransGen (fun a b => ∃ t, AStep (histObj eq) p t a b)
      (hist, fun t => view p (s.loc t) (s.obj.pc t)) (hist', fun t => view p (s'.loc t) (s'.obj.pc t)) := by
  have hr : ∀ {x}, Relation.ReflTransGen (CStep (syncmap eq) p) s x → CReach (syncmap eq) p l x := by
    intro x hx
    induction hx with
    | refl => exact h
    | tail _ st ih => exact ih.step st
  induction hs with
  | refl => exact ⟨hist, hm, .refl⟩
  | @tail x y hx st ih =>
    obtain ⟨hist', h1, h2⟩ := ih
    rcases abs_step readsOnly (hr hx) st with e | ⟨t, ast⟩
    · unfold RW.abs at e
      obtain ⟨e1, e2⟩ := Prod.mk.inj e
      rw [e1, e2]
      exact ⟨hist', h1, h2⟩
    · unfold RW.abs at ast
      generalize ha : (x.obj.m, fun t => view p (x.loc t) (x.obj.pc t)) = a at ast
      generalize hb : (y.obj.m, fun t => view p (y.loc t) (y.obj.pc t)) = b at ast
      cases ast with
      | @mk m lo c r m' hc hst =>
        obtain ⟨rfl, rfl⟩ := Prod.mk.inj ha
        obtain ⟨hy1, hy2⟩ := Prod.mk.inj hb
        rw [h1] at hst
        obtain ⟨hist'', h3, h4⟩ := sim_step pe hist' c r m' hst
        refine ⟨hist'', by rw [hy1]; exact h4, h2.tail ⟨t, ?_⟩⟩
        rw [hy2]
        exact .mk hc h3

/-- **C166, at rest.** When all goroutines are outside the map: their local states are reached with every call made at once. -/
theorem C166_rest (pe : PartialEq eq) {s : CSt _ (List (K × V)) _ _ P} (h : CReach (syncmap eq) p l s) (hi : ∀ t, s.obj.pc t = .idle) :
    ∃ hist, AReach (histObj eq) p l (hist, s.loc) ∧ s.obj.m = run eq hist := by
  obtain ⟨hist, h1, h2⟩ := C166_atomic pe h
  refine ⟨hist, ?_, h2⟩
  have : (fun t => view p (s.loc t) (s.obj.pc t)) = s.loc := by funext t; rw [hi t]; rfl
  rw [this] at h1
  exact h1

/-- **C166, conversely.** Calls made one after the other, by any goroutines, are an execution with the locks. -/
theorem C166_sequential {m : List (K × V)} {l' : Nat → P} (h : AReach (seqObj (syncmap eq)) p l (m, l')) :
    ∃ s, CReach (syncmap eq) p l s ∧ s.obj.m = m ∧ s.loc = l' ∧ ∀ t, s.obj.pc t = .idle := by
  obtain ⟨s, h1, h2, h3, h4, _⟩ := sequential h
  exact ⟨s, h1, h2, h3, h4⟩

/-- **C166, no deadlock.** When no goroutine can go on all have come to the end of their programs. -/
theorem C166_stuck {s : CSt _ (List (K × V)) _ _ P} (h : CReach (syncmap eq) p l s) (hn : ¬ ∃ s', CStep (syncmap eq) p s s') (t : Nat) :
    s.obj.pc t = .idle ∧ p.call (s.loc t) = none := stuck readsOnly live h hn t

/-- **C166, an end.** Programs of finitely many goroutines that end when every call is made at once end. -/
theorem C166_ends (pe : PartialEq eq) {N : Nat} (hN : ∀ t, N ≤ t → p.call (l t) = none)
    (ha : ∀ x, AReach (histObj eq) p l x → Acc (fun b a => ∃ t, AStep (histObj eq) p t a b) x)
    {s : CSt _ (List (K × V)) _ _ P} (h : CReach (syncmap eq) p l s) : Acc (fun s' s => CStep (syncmap eq) p s s') s := by
  obtain ⟨hist, h1, h2⟩ := C166_atomic pe h
  exact client_ends readsOnly shrinks hN h (acc_sim (o := seqObj (syncmap eq)) (o' := histObj eq) (fun m hist => m = run eq hist)
    (fun m m' c r hist e st => by subst e; exact sim_step pe hist c r m' st) (a := (hist, _)) h2 (ha _ h1))

/-! ## A case -/

/-- `if !m.Has(1) { m.Set(1, t) }; v := m.Get(1)` by goroutine `t`. -/
inductive First where
  | has (t : Nat)
  | set (t : Nat)
  | get
  | done (v : Nat)

def first : Client First (Call Nat Nat) (Res Nat Nat) where
  call
    | .has _ => some (.has 1)
    | .set t => some (.set 1 t)
    | .get => some (.get 1)
    | .done _ => none
  resume
    | .has t, .bool b => if b then .get else .set t
    | .set _, _ => .get
    | .get, .val v => .done v
    | q, _ => q

/-- Two goroutines, both find nothing, both store: the second value stays, and the first goroutine got its own. -/
example : ∃ s, CReach (syncmap (fun a b : Nat => decide (a = b))) first (fun t => if t < 2 then .has t else .done 0) s ∧
    (s.loc 0, s.loc 1) = (.done 0, .done 1) ∧ ∀ t, s.obj.pc t = .idle := by
  have h := AReach.start (o := seqObj (syncmap (V := Nat) (fun a b : Nat => decide (a = b)))) (p := first) (l := fun t => if t < 2 then .has t else .done 0)
  replace h := h.step (t := 0) (.mk rfl ⟨[], .refl, rfl, rfl⟩)
  replace h := h.step (t := 1) (.mk rfl ⟨[], .refl, rfl, rfl⟩)
  replace h := h.step (t := 0) (.mk rfl ⟨[], .refl, rfl, rfl⟩)
  replace h := h.step (t := 0) (.mk rfl ⟨[], .refl, rfl, rfl⟩)
  replace h := h.step (t := 1) (.mk rfl ⟨[], .refl, rfl, rfl⟩)
  replace h := h.step (t := 1) (.mk rfl ⟨[], .refl, rfl, rfl⟩)
  obtain ⟨s, h1, _, h3, h4⟩ := C166_sequential h
  exact ⟨s, h1, by rw [h3]; rfl, h4⟩

end Verif.MapProg
