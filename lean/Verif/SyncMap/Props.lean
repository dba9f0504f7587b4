import Verif.SyncMap.Ends
/-!
# Properties C11-C12: the concurrent map `syncmapx`
-/
namespace Verif.SyncMap
open Verif.Conc

variable {K V : Type} [DecidableEq K] [DecidableEq V] [Inhabited V]

/-- **C11.** In every schedule of any number of goroutines making any calls, the history of
invocations and returns is linearizable with respect to the sequential map. -/
theorem C11_linearizable {s : St K V} (h : Reach s) : Linearizable mapObj s.hist := by
  obtain ⟨S, i⟩ := h.inv
  exact ⟨S, _, i.lin⟩

/-- A goroutine inside a call is never stuck for good: if any goroutine is inside a call, some
goroutine can take a step other than invoking a new call. -/
theorem C11_no_deadlock {s : St K V} (h : Reach s) {t : Nat} (ht : s.pc t ≠ .idle) :
    ∃ s', Step s s' ∧ s'.next = s.next := by
  obtain ⟨S, i⟩ := h.inv
  -- a goroutine in its body or holding the lock can go on
  have hbody : ∀ t id c acc, s.pc t = .body id c acc → ∃ s', Step s s' ∧ s'.next = s.next := by
    intro t id c acc hp
    cases hf : finish s.m c acc with
    | some rm => exact ⟨_, .access hp (show finish s.m c acc = some (rm.1, rm.2) from hf), rfl⟩
    | none =>
      have hc : c = .keys ∨ c = .values := by cases c <;> simp [finish] at hf ⊢
      have : ∃ e ∈ s.m, e ∉ acc := by
        by_contra hall
        have hall : ∀ e ∈ s.m, e ∈ acc := by
          intro e he; by_contra hn; exact hall ⟨e, he, hn⟩
        rcases hc with rfl | rfl <;> simp [finish] at hf <;> obtain ⟨a, b, h1, h2⟩ := hf <;>
          exact h2 (hall _ h1)
      obtain ⟨e, he, hn⟩ := this
      exact ⟨_, .iter hp hc he hn, rfl⟩
  have hheld : ∀ t id c r, s.pc t = .held id c r → ∃ s', Step s s' ∧ s'.next = s.next := by
    intro t id c r hp
    cases hm : mode c with
    | read => exact ⟨_, .runlock hp hm, rfl⟩
    | write => exact ⟨_, .unlock hp hm, rfl⟩
  have hholds : ∀ t m, (s.pc t).holds = some m → ∃ s', Step s s' ∧ s'.next = s.next := by
    intro t m hh
    cases hp : s.pc t with
    | body id c acc => exact hbody t id c acc hp
    | held id c r => exact hheld t id c r hp
    | idle => rw [hp] at hh; cases hh
    | want => rw [hp] at hh; cases hh
    | out => rw [hp] at hh; cases hh
  cases hp : s.pc t with
  | idle => exact absurd hp ht
  | body id c acc => exact hbody t id c acc hp
  | held id c r => exact hheld t id c r hp
  | out id c r => exact ⟨_, .ret hp, rfl⟩
  | want id c =>
    cases hw : s.writer with
    | some t' => exact hholds t' _ ((i.writer t').1 hw)
    | none =>
      cases hm : mode c with
      | read => exact ⟨_, .rlock hp hm hw, rfl⟩
      | write =>
        cases hr : s.readers with
        | nil => exact ⟨_, .lock hp hm hw hr, rfl⟩
        | cons t' l => exact hholds t' _ ((i.readers t').1 (by rw [hr]; simp))

/-- Without new calls no execution goes on for ever. -/
theorem C11_ends {s : St K V} (h : Reach s) :
    ¬ ∃ f : Nat → St K V, f 0 = s ∧ ∀ n, Step (f n) (f (n + 1)) ∧ (f (n + 1)).next = (f n).next := by
  rintro ⟨f, rfl, hf⟩
  obtain ⟨N, hN⟩ := reach_below h
  have key : ∀ s, Acc (fun s' s : St K V => Quiet s s') s → ∀ n, f n = s → False := by
    intro s ha
    induction ha with
    | intro s _ ih =>
      intro n e
      exact ih (f (n + 1)) (e ▸ hf n) (n + 1) rfl
  exact key _ (quiet_acc _ hN) 0 rfl

/-- And it can end in one way only: with all calls returned. From every state such an end is reached. -/
theorem C11_all_return {s : St K V} (h : Reach s) :
    ((¬ ∃ s', Step s s' ∧ s'.next = s.next) → ∀ t, s.pc t = .idle) ∧
    ∃ s', Relation.ReflTransGen (fun a b : St K V => Step a b ∧ b.next = a.next) s s' ∧ ∀ t, s'.pc t = .idle := by
  constructor
  · intro hn t
    by_contra ht
    exact hn (C11_no_deadlock h ht)
  · obtain ⟨N, hN⟩ := reach_below h
    have ha := quiet_acc _ hN
    clear hN
    induction ha with
    | intro s _ ih =>
      by_cases hs : ∀ t, s.pc t = .idle
      · exact ⟨s, .refl, hs⟩
      · obtain ⟨t, ht⟩ := not_forall.1 hs
        obtain ⟨s1, h1, h2⟩ := C11_no_deadlock h ht
        obtain ⟨s2, h3, h4⟩ := ih s1 ⟨h1, h2⟩ (h.step h1)
        exact ⟨s2, .head ⟨h1, h2⟩ h3, h4⟩

/-- The goroutine is accessing the underlying Go map on behalf of a call. -/
def Accessing (s : St K V) (t : Nat) (c : Call K V) : Prop := ∃ id acc, s.pc t = .body id c acc

/-- The calls that modify the map. -/
def Writes : Call K V → Prop
  | .set _ _ => True
  | .delete _ => True
  | .clear => True
  | _ => False

/-- **C12.** In every schedule, while a `Set`, `Delete` or `Clear` accesses the underlying map, no
other goroutine accesses it. -/
theorem C12_no_race {s : St K V} (h : Reach s) {t t' : Nat} {c c' : Call K V}
    (ht : Accessing s t c) (ht' : Accessing s t' c') (hw : Writes c) : t' = t := by
  obtain ⟨S, i⟩ := h.inv
  obtain ⟨id, acc, hp⟩ := ht
  obtain ⟨id', acc', hp'⟩ := ht'
  have hm : mode c = .write := by cases c <;> simp_all [Writes, mode]
  have hwt : s.writer = some t := (i.writer t).2 (by rw [hp, Pc.holds, hm])
  cases hm' : mode c' with
  | read =>
    have : t' ∈ s.readers := (i.readers t').2 (by rw [hp', Pc.holds, hm'])
    rw [i.excl (by rw [hwt]; simp)] at this
    simp at this
  | write =>
    have : s.writer = some t' := (i.writer t').2 (by rw [hp', Pc.holds, hm'])
    rw [hwt] at this; cases this; rfl

/-- Reads do overlap: two goroutines can be inside `Keys` and `Get` at once, so C12 is not obtained
by serialising everything. -/
example : ∃ s : St Nat Nat, Reach s ∧ Accessing s 0 .keys ∧ Accessing s 1 (.get 5) := by
  have h1 := Reach.init.step (Step.invoke (K := Nat) (V := Nat) (s := init) (t := 0) (c := .keys) rfl)
  have h2 := h1.step (Step.invoke (t := 1) (c := .get 5) rfl)
  have h3 := h2.step (Step.rlock (t := 0) (id := 0) (c := .keys) rfl rfl rfl)
  have h4 := h3.step (Step.rlock (t := 1) (id := 1) (c := .get 5) rfl rfl rfl)
  exact ⟨_, h4, ⟨0, [], rfl⟩, ⟨1, [], rfl⟩⟩

/-- From that state both goroutines can be run to the end, and must be. -/
example : ∃ s s' : St Nat Nat, Reach s ∧ (∃ t, s.pc t ≠ .idle) ∧
    Relation.ReflTransGen (fun a b : St Nat Nat => Step a b ∧ b.next = a.next) s s' ∧ ∀ t, s'.pc t = .idle := by
  have h1 := Reach.init.step (Step.invoke (K := Nat) (V := Nat) (s := init) (t := 0) (c := .keys) rfl)
  have h2 := h1.step (Step.invoke (t := 1) (c := .get 5) rfl)
  obtain ⟨s', h, h'⟩ := (C11_all_return h2).2
  exact ⟨_, s', h2, ⟨0, by simp [setPc]⟩, h, h'⟩

/-- A schedule in which `Set` completes between the invocation and the return of `Get`. -/
example : ∃ s : St Nat Nat, Reach s ∧
    s.hist = [.inv 0 (.get 5), .inv 1 (.set 5 7), .ret 1 .unit, .ret 0 (.val 7)] := by
  have h1 := Reach.init.step (Step.invoke (K := Nat) (V := Nat) (s := init) (t := 0) (c := .get 5) rfl)
  have h2 := h1.step (Step.invoke (t := 1) (c := .set 5 7) rfl)
  have h3 := h2.step (Step.lock (t := 1) (id := 1) (c := .set 5 7) rfl rfl rfl rfl)
  have h4 := h3.step (Step.access (t := 1) (id := 1) (c := .set 5 7) (acc := []) rfl rfl)
  have h5 := h4.step (Step.unlock (t := 1) (id := 1) (c := .set 5 7) (r := .unit) rfl rfl)
  have h6 := h5.step (Step.ret (t := 1) (id := 1) (c := .set 5 7) (r := .unit) rfl)
  have h7 := h6.step (Step.rlock (t := 0) (id := 0) (c := .get 5) rfl rfl rfl)
  have h8 := h7.step (Step.access (t := 0) (id := 0) (c := .get 5) (acc := []) rfl rfl)
  have h9 := h8.step (Step.runlock (t := 0) (id := 0) (c := .get 5) rfl rfl)
  have h10 := h9.step (Step.ret (t := 0) (id := 0) (c := .get 5) rfl)
  exact ⟨_, h10, rfl⟩

end Verif.SyncMap
