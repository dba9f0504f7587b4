import Verif.PoolUse.Lemmas
/-!
# C154: a typed pool hands objects on as they were put
-/
namespace Verif.PoolUse

variable {T : Type} [Inhabited T] {N : T → Prop}

/-- What `Get` takes from the pool is an object that nobody holds, which was put before and left alone since, so its content is
the content it was put with. -/
theorem C154_handed_on {p q : List (Ev T)} {g : Nat} {x : Option Nat} {s : St T} (r : Run N (p ++ .take g x :: q) s)
    (k : KeepsRules (p ++ .take g x :: q)) :
    ∃ a, x = some a ∧ holder a p = none ∧ ∃ p1 g' p2 v, p = p1 ++ .put g' (some a) :: p2 ∧ (∀ e ∈ p2, ¬ About a e) ∧
      LastSet a v p1 ∧ LastSet a v p := by
  obtain ⟨s0, s1, r0, st⟩ := run_split r p _ q rfl
  have i := run_inv r0 k.prefix
  generalize he : Ev.take g x = e at st
  cases st <;> cases he
  rename_i hx
  cases x with
  | none => exact absurd hx i.nonnil
  | some a =>
    refine ⟨a, rfl, i.free a hx, ?_⟩
    obtain ⟨p1, g', p2, rfl, hq⟩ := i.put a hx
    refine ⟨p1, g', p2, s0.val a, rfl, hq, ?_, i.val a (i.lt a hx)⟩
    obtain ⟨u, e, w, hu, hs, hw⟩ := i.val a (i.lt a hx)
    have ab : ∀ (e : Ev T) {v : T}, Sets a v e → About a e := by
      intro e v h; cases e <;> simp only [Sets] at h <;> exact h.1
    rcases List.append_eq_append_iff.1 hu with ⟨l, h3, h4⟩ | ⟨l, h3, h4⟩
    · cases l with
      | nil => simp at h4; rw [← h4.1] at hs; exact hs.elim
      | cons b l =>
        simp at h4
        exact absurd (ab _ hs) (hq e (by rw [h4.2]; simp))
    · cases l with
      | nil => simp at h4; rw [h4.1] at hs; exact hs.elim
      | cons b l =>
        simp at h4
        refine ⟨u, b, l, h3, by rw [← h4.1]; exact hs, fun e' he' w' => hw e' (by rw [h4.2]; simp [he']) w'⟩

/-- Objects put in a state that `New` could have left them in come out in such a state: every `Get` gives an object satisfying `I`
if `New` does and every object is put satisfying `I`. -/
theorem C154_reset {h : List (Ev T)} {s : St T} (r : Run N h s) (k : KeepsRules h) (I : T → Prop) (hN : ∀ v, N v → I v)
    (hput : ∀ p g a q v, h = p ++ .put g (some a) :: q → LastSet a v p → I v) :
    (∀ p g a v q, h = p ++ .made g a v :: q → I v) ∧
    ∀ p g x q, h = p ++ .take g x :: q → ∃ a v, x = some a ∧ LastSet a v p ∧ I v := by
  constructor
  · intro p g a v q hp
    obtain ⟨s0, s1, r0, st⟩ := run_split r p _ q hp
    generalize he : Ev.made g a v = e at st
    cases st <;> cases he
    rename_i hv
    exact hN _ hv
  · intro p g x q hp
    cases hp
    obtain ⟨a, hx, _, p1, g', p2, v, rfl, _, h1, h2⟩ := C154_handed_on r k
    refine ⟨a, v, hx, h2, hput p1 g' a (p2 ++ .take g x :: q) v (by simp) h1⟩

/-- The object that a goroutine holds is its own: it got the object from the pool or made it, since then only it has read or
written it and nobody has put it, and it reads what was set last. -/
theorem C154_reads {p q : List (Ev T)} {g a : Nat} {v : T} {s : St T} (r : Run N (p ++ .read g a v :: q) s)
    (k : KeepsRules (p ++ .read g a v :: q)) :
    LastSet a v p ∧ ∃ p1 e p2, p = p1 ++ e :: p2 ∧ Gives g a e ∧ ∀ e' ∈ p2, About a e' → By g e' := by
  obtain ⟨s0, s1, r0, st⟩ := run_split r p _ q rfl
  have i := run_inv r0 k.prefix
  have ka : holder a p = some g := k p _ q rfl
  generalize he : Ev.read g a v = e at st
  cases st <;> cases he
  rename_i ha
  exact ⟨i.val a ha, i.held a g ka⟩

/-- `Get` panics only while `Init` has not been called — whatever else the callers do. -/
theorem C154_no_panic {p q : List (Ev T)} {g : Nat} {s : St T} (r : Run N (p ++ .panicked g :: q) s) : .init ∉ p := by
  obtain ⟨s0, s1, r0, st⟩ := run_split r p _ q rfl
  generalize he : Ev.panicked g = e at st
  cases st <;> cases he
  rename_i h
  intro hi
  rw [(hasNew_iff r0).2 hi] at h; cases h

/-- Once `Init` has been called, `Get` can always return, and while `Init` has not been called it can always panic or take
something that was put. -/
theorem C154_get (h : List (Ev T)) (s : St T) (r : Run N h s) (g : Nat) (v : T) (hv : N v) :
    (.init ∈ h → Run N (h ++ [.made g s.brk v]) (s.alloc v)) ∧ (.init ∉ h → Run N (h ++ [.panicked g]) s) :=
  ⟨fun hi => r.snoc (.made s g v ((hasNew_iff r).2 hi) hv),
    fun hi => r.snoc (.panicked s g (by
      cases hx : s.hasNew with
      | false => rfl
      | true => exact absurd ((hasNew_iff r).1 hx) hi))⟩

/-! ## A pool of numbers whose `New` gives 0 -/

/-- `Init`; goroutine 1 gets an object, sets it to 5, sets it to 0 again and puts it; goroutine 2 gets it and reads it. -/
def kept : List (Ev Nat) := [.init, .made 1 0 0, .write 1 0 5, .write 1 0 0, .put 1 (some 0), .take 2 (some 0), .read 2 0 0]

theorem kept_rules : KeepsRules kept :=
  keeps_of_oks kept [] keeps_nil ⟨trivial, trivial, rfl, rfl, rfl, trivial, rfl, trivial⟩

theorem kept_run : ∃ s, Run (· = 0) kept s := run_of (by decide)

/-- The theorems apply to it. -/
example : ∃ a, some 0 = some a ∧ holder a (kept.take 5) = none := by
  obtain ⟨s, r⟩ := kept_run
  obtain ⟨a, h1, h2, _⟩ := C154_handed_on (p := kept.take 5) (q := [.read 2 0 0]) (g := 2) (x := some 0) r kept_rules
  exact ⟨a, h1, h2⟩

example : LastSet 0 0 (kept.take 6) := by
  obtain ⟨s, r⟩ := kept_run
  exact (C154_reads (p := kept.take 6) (q := []) (g := 2) (a := 0) (v := 0) r kept_rules).1

/-! ## Why each of the rules is there -/

/-- An object put without being reset is handed on with the old content, though every other rule is kept. -/
theorem C154_reset_needed :
    KeepsRules [.init, .made 1 0 0, .write 1 0 5, .put 1 (some 0), .take 2 (some 0), .read 2 0 5] ∧
    ∃ s, Run (· = 0) [.init, .made 1 0 0, .write 1 0 5, .put 1 (some 0), .take 2 (some 0), .read 2 0 5] s :=
  ⟨keeps_of_oks _ [] keeps_nil ⟨trivial, trivial, rfl, rfl, trivial, rfl, trivial⟩, run_of (by decide)⟩

/-- An object put twice is given to two goroutines, and one reads what the other wrote. -/
theorem C154_single_put_needed : ∃ s, Run (· = 0)
    [.init, .made 1 0 0, .put 1 (some 0), .put 1 (some 0), .take 2 (some 0), .take 3 (some 0), .write 3 0 7, .read 2 0 7] s :=
  run_of (by decide)

/-- An object used after it was put changes in the hands of the next holder. -/
theorem C154_no_use_after_put_needed : ∃ s, Run (· = 0)
    [.init, .made 1 0 0, .put 1 (some 0), .take 2 (some 0), .write 2 0 3, .write 1 0 9, .read 2 0 9] s :=
  run_of (by decide)

/-- A nil pointer put is a nil pointer got, although `New` never gives one. -/
theorem C154_no_nil_needed : ∃ s, Run (· = 0) ([.init, .put 1 none, .take 2 none] : List (Ev Nat)) s :=
  run_of (by decide)

/-- Without `Init`, `Get` panics, even when an object was put: the garbage collector may have taken it. -/
theorem C154_init_needed : ∃ s, Run (· = 0) ([.own 1 0 4, .put 1 (some 0), .drop (some 0), .panicked 1] : List (Ev Nat)) s :=
  run_of (by decide)

end Verif.PoolUse
