import Verif.SklShare.Lemmas
/-!
# C144: a skip-list map behind an RWMutex
-/
namespace Verif.SklShare
open Verif.Go Verif.Conc Verif.Skl

variable {K V : Type} [GoOrdered K] [LawfulOrdered K] [DecidableEq K] [Inhabited K] [Inhabited V] {seed : BitVec 64}

/-- **C144.** In every schedule the calls of all goroutines behave like calls on one map, made one after the other at moments between
their start and their return. -/
theorem C144_linearizable {s : St K V seed} (h : RW.Reach (shared K V seed) s) : Linearizable (mapObj K V) s.hist :=
  RW.sim Agree ⟨[], rfl, rfl⟩ sim_step (RW.linearizable readsOnly h)

/-- The calls that modify the map. -/
def Modifies : Call K V → Prop
  | .set _ _ => True
  | .del _ => True
  | .clear _ => True
  | _ => False

/-- No goroutine is in the map while another modifies it. -/
theorem C144_no_race {s : St K V seed} (h : RW.Reach (shared K V seed) s) {t t' : Nat} {c c' : Call K V}
    (ht : RW.Accessing s t c) (ht' : RW.Accessing s t' c') (hw : Modifies c) : t' = t :=
  RW.no_race readsOnly h ht ht' (by cases c <;> simp_all [Modifies, shared, writes])

/-- Without new calls every execution is finite; one that cannot go on has all calls returned (no call follows a nil pointer, and
none is stuck in a loop); and from every state such an end is reached. -/
theorem C144_all_return {s : St K V seed} (h : RW.Reach (shared K V seed) s) :
    (¬ ∃ f : Nat → St K V seed, f 0 = s ∧
      ∀ n, RW.Step (shared K V seed) (f n) (f (n + 1)) ∧ (f (n + 1)).next = (f n).next) ∧
    ((¬ ∃ s', RW.Step (shared K V seed) s s' ∧ s'.next = s.next) → ∀ t, s.pc t = .idle) ∧
    ∃ s', Relation.ReflTransGen (fun a b : St K V seed => RW.Step (shared K V seed) a b ∧ b.next = a.next) s s' ∧ ∀ t, s'.pc t = .idle :=
  ⟨RW.ends' readsOnly shrinks h, RW.all_return' readsOnly live shrinks h⟩

omit [LawfulOrdered K] [DecidableEq K] [Inhabited K] [Inhabited V] in
/-- `Set` is a search and then the rest. -/
theorem C144_set (w : World K V) (k : K) (v : V) :
    Skl.set w k v = (Skl.search w k).bind (afterSearch (randHeight w.skl.seed) w k v) := by
  rw [Skl.set, Skl.insert, Skl.insertWith]
  congr 1

/-- The lock is needed: if the searches of `Set(1, 10)` and `Set(2, 20)` both come before the rest of either, then both return and
afterwards the key 1 is not found. -/
theorem C144_without : ∃ (seed : BitVec 64) (p q : Option Nat × (Nat → Option Nat)) (w1 w2 : World Int Int),
    Skl.search (Skl.new seed : World Int Int) 1 = .ret p ∧ Skl.search (Skl.new seed : World Int Int) 2 = .ret q ∧
    afterSearch (randHeight seed) (Skl.new seed) 1 10 p = .ret w1 ∧
    afterSearch (randHeight w1.skl.seed) w1 2 20 q = .ret w2 ∧ Skl.len w2 = 2 ∧ Skl.get w2 1 = .ret none ∧ Skl.get w2 2 = .ret (some 20) := by
  refine ⟨0#64, _, _, _, _, rfl, rfl, rfl, rfl, rfl, rfl, rfl⟩

/-- Two goroutines are in the map at once: one has looked at the first key for its listing, the other is on its way down. -/
example : ∃ s : St Int Int 0#64, RW.Reach (shared Int Int 0#64) s ∧ RW.Accessing s 0 .keys ∧ RW.Accessing s 1 (.get 7) := by
  have h1 := RW.Reach.init.step (RW.Step.invoke (g := shared Int Int 0#64) (s := RW.start _) (t := 0) (c := .keys) rfl)
  have h2 := h1.step (.invoke (t := 1) (c := .get 7) rfl)
  have h3 := h2.step (.rlock (t := 0) (id := 0) (c := .keys) rfl rfl rfl)
  have h4 := h3.step (.rlock (t := 1) (id := 1) (c := .get 7) rfl rfl rfl)
  have h5 := h4.step (.iter (t := 0) (id := 0) (c := .keys) (acc := .start) (acc' := .list [] iterator) rfl
    (by exact .list (.inl rfl)))
  have h6 := h5.step (.iter (t := 1) (id := 1) (c := .get 7) (acc := .start) (acc' := .at 0 16) rfl (by exact .get))
  exact ⟨_, h6, ⟨_, _, rfl⟩, ⟨_, _, rfl⟩⟩

/-- A key set by one goroutine is found by another. -/
example : ∃ s : St Int Int 0#64, RW.Reach (shared Int Int 0#64) s ∧
    s.hist = [.inv 0 (.set 7 70), .inv 1 .len, .ret 0 .unit, .ret 1 (.num 1)] := by
  have h1 := RW.Reach.init.step (RW.Step.invoke (g := shared Int Int 0#64) (s := RW.start _) (t := 0) (c := .set 7 70) rfl)
  have h2 := h1.step (.invoke (t := 1) (c := .len) rfl)
  have h3 := h2.step (.lock (t := 0) (id := 0) (c := .set 7 70) rfl rfl rfl rfl)
  obtain ⟨w, nodes, e, r, a⟩ := run_rep (K := Int) (V := Int) 0#64 [.set 7 70]
  have e' : Skl.set (Skl.new 0#64 : World Int Int) 7 70 = .ret w := by
    cases hs : Skl.set (Skl.new 0#64 : World Int Int) 7 70 <;> simp_all [Skl.run, Skl.step]
  have hl : Skl.len w = 1 := by
    have : (Skl.set (Skl.new 0#64 : World Int Int) 7 70).map Skl.len = .ret 1 := by rfl
    rw [e'] at this
    exact Outcome.ret.inj this
  have hf : Finish (⟨w, _, e⟩ : Mem Int Int 0#64) .len .start (.num 1) ⟨w, _, e⟩ := by
    have := Finish.len (w := (⟨w, _, e⟩ : Mem Int Int 0#64))
    rwa [hl] at this
  have h4 := h3.step (.access (t := 0) (id := 0) (c := .set 7 70) (acc := .start) (r := .unit) (m' := ⟨w, _, e⟩) rfl (by exact .set e'))
  have h5 := h4.step (.unlock (t := 0) (id := 0) (c := .set 7 70) (r := .unit) rfl rfl)
  have h6 := h5.step (.rlock (t := 1) (id := 1) (c := .len) rfl rfl rfl)
  have h7 := h6.step (.access (t := 1) (id := 1) (c := .len) (acc := .start) (r := .num 1) (m' := ⟨w, _, e⟩) rfl (by exact hf))
  have h8 := h7.step (.runlock (t := 1) (id := 1) (c := .len) rfl rfl)
  have h9 := h8.step (.ret (t := 0) (id := 0) (c := .set 7 70) (r := .unit) rfl)
  have h10 := h9.step (.ret (t := 1) (id := 1) (c := .len) rfl)
  exact ⟨_, h10, rfl⟩

end Verif.SklShare
