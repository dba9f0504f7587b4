import Verif.OrdShare.Lemmas
/-!
# C153: an ordered map behind an RWMutex
-/
namespace Verif.OrdShare
open Verif.Go Verif.Conc Verif.Skl Verif.Ord

variable {K V : Type} [GoOrdered K] [LawfulOrdered K] [DecidableEq K] [Inhabited K] [Inhabited V] {seed : BitVec 64}

/-- **C153.** In every schedule the calls of all goroutines behave like calls on one ordered map, made one after the other at moments
between their start and their return. So `Values` and `Range` never pair a key with a value it did not have at that moment. -/
theorem C153_linearizable {s : St K V seed} (h : RW.Reach (shared K V seed) s) : Linearizable (mapObj K V) s.hist :=
  RW.sim Agree ⟨[], rfl, rfl⟩ sim_step (RW.linearizable readsOnly h)

/-- The calls that modify the map. -/
def Modifies : Call K V → Prop
  | .set _ _ => True
  | .del _ => True
  | .clear _ => True
  | _ => False

/-- No goroutine is in the map while another modifies it. -/
theorem C153_no_race {s : St K V seed} (h : RW.Reach (shared K V seed) s) {t t' : Nat} {c c' : Call K V}
    (ht : RW.Accessing s t c) (ht' : RW.Accessing s t' c') (hw : Modifies c) : t' = t :=
  RW.no_race readsOnly h ht ht' (by cases c <;> simp_all [Modifies, shared, writes])

/-- Without new calls every execution is finite; one that cannot go on has all calls returned; and from every state such an end is
reached. -/
theorem C153_all_return {s : St K V seed} (h : RW.Reach (shared K V seed) s) :
    (¬ ∃ f : Nat → St K V seed, f 0 = s ∧
      ∀ n, RW.Step (shared K V seed) (f n) (f (n + 1)) ∧ (f (n + 1)).next = (f n).next) ∧
    ((¬ ∃ s', RW.Step (shared K V seed) s s' ∧ s'.next = s.next) → ∀ t, s.pc t = .idle) ∧
    ∃ s', Relation.ReflTransGen (fun a b : St K V seed => RW.Step (shared K V seed) a b ∧ b.next = a.next) s s' ∧ ∀ t, s'.pc t = .idle :=
  ⟨RW.ends' readsOnly shrinks h, RW.all_return' readsOnly live shrinks h⟩

/-- `Set` of a new key is its two halves. -/
theorem C153_set (o : OrdMap K V) (k : K) (v : V) (h : o.m k = none) :
    Ord.set o k v = (setIndex o k).bind fun o => .ret (setValue o k v) := by
  rw [Ord.set, setIndex, if_pos (by simp [h])]
  cases Skl.set o.skl k () <;> rfl

/-- The lock is needed for reading too: a `Values` between the two halves of `Set(1, 10)` on a new map returns a value that no call ever
put in, and `Get(1)` finds nothing there while `Keys` lists the key. -/
theorem C153_without : ∃ (seed : BitVec 64) (o : OrdMap Int Int), setIndex (Ord.new seed : OrdMap Int Int) 1 = .ret o ∧
    Ord.values o = .ret [0] ∧ Ord.keys o = .ret [1] ∧ Ord.get o 1 = none ∧
    Ord.set (Ord.new seed : OrdMap Int Int) 1 10 = .ret (setValue o 1 10) ∧ Ord.values (setValue o 1 10) = .ret [10] := by
  refine ⟨0#64, _, rfl, rfl, rfl, rfl, rfl, rfl⟩

/-- Two goroutines are in the map at once. -/
example : ∃ s : St Int Int 0#64, RW.Reach (shared Int Int 0#64) s ∧ RW.Accessing s 0 .values ∧ RW.Accessing s 1 (.get 7) := by
  have h1 := RW.Reach.init.step (RW.Step.invoke (g := shared Int Int 0#64) (s := RW.start _) (t := 0) (c := .values) rfl)
  have h2 := h1.step (.invoke (t := 1) (c := .get 7) rfl)
  have h3 := h2.step (.rlock (t := 0) (id := 0) (c := .values) rfl rfl rfl)
  have h4 := h3.step (.rlock (t := 1) (id := 1) (c := .get 7) rfl rfl rfl)
  have h5 := h4.step (.iter (t := 0) (id := 0) (c := .values) (acc := .start) (acc' := .list [] iterator false) rfl
    (by exact .init trivial))
  exact ⟨_, h5, ⟨_, _, rfl⟩, ⟨_, _, rfl⟩⟩

/-- One goroutine sets a key; the `Range` of another, called before that returned, is given the entry and stops. -/
example : ∃ s : St Int Int 0#64, RW.Reach (shared Int Int 0#64) s ∧
    s.hist = [.inv 0 (.set 7 70), .inv 1 (.range fun _ => true), .ret 0 .unit, .ret 1 (.seen [(7, 70)])] := by
  have h1 := RW.Reach.init.step (RW.Step.invoke (g := shared Int Int 0#64) (s := RW.start _) (t := 0) (c := .set 7 70) rfl)
  have h2 := h1.step (.invoke (t := 1) (c := .range fun _ => true) rfl)
  have h3 := h2.step (.lock (t := 0) (id := 0) (c := .set 7 70) rfl rfl rfl rfl)
  obtain ⟨o, nodes, e, i⟩ := run_inv (K := Int) (V := Int) 0#64 [.set 7 70]
  have e' : Ord.set (Ord.new 0#64 : OrdMap Int Int) 7 70 = .ret o := by
    cases hs : Ord.set (Ord.new 0#64 : OrdMap Int Int) 7 70 <;> simp_all [Ord.run, Ord.step]
  have hn : ∃ it', Skl.next o.skl iterator = .ret (it', some (7, ())) ∧ o.m 7 = some 70 := by
    have h : (Ord.set (Ord.new 0#64 : OrdMap Int Int) 7 70).bind
        (fun o => (Skl.next o.skl iterator).map fun p => (p.2, o.m 7)) = .ret (some (7, ()), some 70) := by rfl
    rw [e', Outcome.bind_ret] at h
    cases hs : Skl.next o.skl iterator with
    | ret p =>
      rw [hs] at h
      obtain ⟨it', x⟩ := p
      simp only [Outcome.map, Outcome.bind_ret, Outcome.ret.injEq, Prod.mk.injEq] at h
      exact ⟨it', by rw [h.1], h.2⟩
    | panic => rw [hs] at h; cases h
    | hang => rw [hs] at h; cases h
  obtain ⟨it', hn, hm⟩ := hn
  have hi : Iterate o (.range fun _ => true) (.list [] iterator false) (.list [(7, 70)] it' true) := by
    have := Iterate.next (c := .range fun _ => true) (acc := []) (o := o) (by trivial) hn
    rw [hm] at this
    exact this
  have h4 := h3.step (.access (t := 0) (id := 0) (c := .set 7 70) (acc := .start) (r := .unit) (m' := ⟨o, _, e⟩) rfl (by exact .set e'))
  have h5 := h4.step (.unlock (t := 0) (id := 0) (c := .set 7 70) (r := .unit) rfl rfl)
  have h6 := h5.step (.rlock (t := 1) (id := 1) (c := .range fun _ => true) rfl rfl rfl)
  have h7 := h6.step (.iter (t := 1) (id := 1) (c := .range fun _ => true) (acc := .start) (acc' := .list [] iterator false) rfl
    (by exact .init trivial))
  have h8 := h7.step (.iter (t := 1) (id := 1) (c := .range fun _ => true) (acc := .list [] iterator false)
    (acc' := .list [(7, 70)] it' true) rfl (by exact hi))
  have h9 := h8.step (.access (t := 1) (id := 1) (c := .range fun _ => true) (acc := .list [(7, 70)] it' true) (r := .seen [(7, 70)])
    (m' := ⟨o, _, e⟩) rfl (by exact .range (.inl rfl)))
  have h10 := h9.step (.runlock (t := 1) (id := 1) (c := .range fun _ => true) rfl rfl)
  have h11 := h10.step (.ret (t := 0) (id := 0) (c := .set 7 70) (r := .unit) rfl)
  have h12 := h11.step (.ret (t := 1) (id := 1) (c := .range fun _ => true) rfl)
  exact ⟨_, h12, rfl⟩

end Verif.OrdShare
