import Verif.RingPair.Lemmas
/-!
# C149: a ring between one goroutine that puts in and one that takes out
-/
namespace Verif.RingPair
open Verif.Conc Verif.Go
open Verif.Ring (Op Res at?)

variable {T : Type}

/-- Both goroutines are about to access the same location, and one of them to write. -/
def Race (s : St T) : Prop := ∃ loc w w', PAccess s loc w ∧ CAccess s loc w' ∧ (w = true ∨ w' = true)

/-- **C149 (full statement).** One goroutine can put elements into a ring while another takes them out: the calls behave like calls
on a bounded queue made one after the other, and there is no data race. -/
def C149_full : Prop :=
  ∀ (T : Type) [Inhabited T] (n : Int) (r : Ring.Ring T), n < 2 ^ 63 - 1 → Ring.new n = .ret (some r) → ∀ s, Reach r s →
    Linearizable (queue T n.toNat) s.hist ∧ ¬ Race s

/-- **C149, exactly**: with every read and write of memory a step, and any interleaving, the calls are linearizable; the queue is the
ring as it is when used alone (C17), which panics when it is not full and has accepted as many elements as it has room for. -/
theorem C149_exact [Inhabited T] {n : Int} (hn : n < 2 ^ 63 - 1) {r : Ring.Ring T} (hr : Ring.new n = .ret (some r)) {s : St T}
    (h : Reach r s) : Linearizable (worn T n.toNat) s.hist := by
  obtain ⟨S, a, l, stage, k, _⟩ := h.inv hn hr
  exact ⟨S, _, k.lin⟩

/-- **C149, what does hold**: as long as `Enqueue` was not called more often than the ring has room, the calls behave like calls on a
bounded queue, made one after the other at moments between their start and their return. Missing from the full claim: longer use, and
data races. -/
theorem C149_partial [Inhabited T] {n : Int} (hn : n < 2 ^ 63 - 1) {r : Ring.Ring T} (hr : Ring.new n = .ret (some r)) {s : St T}
    (h : Reach r s) (ho : offers s.hist ≤ n.toNat) : Linearizable (queue T n.toNat) s.hist := by
  obtain ⟨S, x, l⟩ := C149_exact hn hr h
  exact ⟨S, x.2, (legal_queue l.legal).2.2 (Nat.le_trans (puttings_le l) ho), l.once, l.invoked, l.returned, l.realtime⟩

/-- **C149, in order**: what was put in is what was taken out, in the same order, and then what is still there; for any use. -/
theorem C149_fifo [Inhabited T] {n : Int} (hn : n < 2 ^ 63 - 1) {r : Ring.Ring T} (hr : Ring.new n = .ret (some r)) {s : St T}
    (h : Reach r s) : ∃ S a l, LinTo (worn T n.toNat) s.hist S (a, l) ∧ puts S = takes S ++ l := by
  obtain ⟨S, ⟨a, l⟩, hl⟩ := C149_exact hn hr h
  refine ⟨S, a, l, hl, ?_⟩
  have key : ∀ S x, Legal (worn T n.toNat) S x → puts S = takes S ++ x.2 := by
    intro S x hl
    induction hl with
    | nil => rfl
    | @snoc S x x' id c r hl hs ih =>
      have h1 : puts (S ++ [(id, c, r)]) = puts S ++ puts [(id, c, r)] := by unfold puts; rw [List.filterMap_append]
      have h2 : takes (S ++ [(id, c, r)]) = takes S ++ takes [(id, c, r)] := by unfold takes; rw [List.filterMap_append]
      rw [h1, h2, ih]
      cases hs with
      | put _ => simp [puts, takes]
      | refuse _ => simp [puts, takes]
      | panic _ => simp [puts, takes]
      | other hc hd => cases hd <;> simp_all [puts, takes]
  exact key S _ hl.legal

/-- **C149, the elements**: the goroutines are never about to access the same element. -/
theorem C149_elements [Inhabited T] {n : Int} (hn : n < 2 ^ 63 - 1) {r : Ring.Ring T} (hr : Ring.new n = .ret (some r)) {s : St T}
    (h : Reach r s) {i : Int} {w w' : Bool} (hp : PAccess s (.data i) w) : ¬ CAccess s (.data i) w' := by
  intro hc
  obtain ⟨S, a, l, stage, k, p, _, hrel⟩ := h.inv hn hr
  have e1 := p.head; have e2 := p.tail
  cases hp with
  | data h1 h2 =>
    generalize hl : s.r.tail = i at hc
    cases hc with
    | data h3 h4 =>
      rw [h3] at hrel
      generalize stage false = x at hrel
      cases hrel with
      | some _ hne =>
        have := List.length_pos_iff.2 hne
        omega

/-- **C149, who writes what**: only the goroutine that puts in writes `tail` and elements, only the other writes `head`; so a conflict
is always one of them looking at the index that the other moves. -/
theorem C149_writers (s : St T) :
    (¬ PAccess s .head true ∧ ¬ CAccess s .tail true ∧ ∀ i, ¬ CAccess s (.data i) true) ∧
    (∀ s', PStep s s' → s'.r.head = s.r.head ∧ (PAccess s .tail true → s'.r.tail = succ s.r s.r.tail) ∧
      (¬ PAccess s .tail true → s'.r.tail = s.r.tail) ∧ ((∀ i, ¬ PAccess s (.data i) true) → s'.r.data = s.r.data)) ∧
    (∀ s', CStep s s' → s'.r.tail = s.r.tail ∧ s'.r.data = s.r.data ∧ (CAccess s .head true → s'.r.head = succ s.r s.r.head) ∧
      (¬ CAccess s .head true → s'.r.head = s.r.head)) := by
  have pt : ∀ {s : St T}, PAccess s .tail true ↔ ∃ id v, s.prod = .stored id v :=
    ⟨fun h => by cases h with | move h => exact ⟨_, _, h⟩, fun ⟨_, _, h⟩ => .move h⟩
  have ch : ∀ {s : St T}, CAccess s .head true ↔ ∃ id v, s.cons = .got id v :=
    ⟨fun h => by cases h with | move h => exact ⟨_, _, h⟩, fun ⟨_, _, h⟩ => .move h⟩
  refine ⟨⟨fun h => (by cases h), fun h => (by cases h), fun i h => ?_⟩, fun s' st => ?_, fun s' st => ?_⟩
  · generalize hw : true = w at h
    generalize hl : Loc.data i = l at h
    cases h <;> simp_all
  · rw [pt]
    cases st with
    | store h e => exact ⟨rfl, fun ⟨_, _, h'⟩ => (by rw [h] at h'; cases h'), fun _ => rfl, fun hn => (hn _ (.data h e)).elim⟩
    | tail h => exact ⟨rfl, fun _ => rfl, fun hn => (hn ⟨_, _, h⟩).elim, fun _ => rfl⟩
    | _ => exact ⟨rfl, fun ⟨_, _, h'⟩ => (by simp_all), fun _ => rfl, fun _ => rfl⟩
  · rw [ch]
    cases st with
    | take h => exact ⟨rfl, rfl, fun _ => rfl, fun hn => (hn ⟨_, _, h⟩).elim⟩
    | _ => exact ⟨rfl, rfl, fun ⟨_, _, h'⟩ => (by simp_all), fun _ => rfl⟩

/-- The steps a call has left. -/
def pLeft : PPc T → Nat
  | .idle => 0
  | .out .. => 1
  | .stored .. => 2
  | .free .. => 3
  | .saw .. => 4
  | .start .. => 5

/-- The steps a call has left. -/
def cLeft : CPc T → Nat
  | .idle => 0
  | .out .. => 1
  | .got .. => 2
  | .some .. => 3
  | .saw .. => 4
  | .start .. => 5

/-- **C149, nobody waits**: a call returns after at most five steps of its own, which it can always make and the other goroutine does
not affect. -/
theorem C149_no_waiting [Inhabited T] {n : Int} (hn : n < 2 ^ 63 - 1) {r : Ring.Ring T} (hr : Ring.new n = .ret (some r)) {s : St T}
    (h : Reach r s) :
    (s.prod ≠ .idle → ∃ s', PStep s s' ∧ s'.next = s.next) ∧ (s.cons ≠ .idle → ∃ s', CStep s s' ∧ s'.next = s.next) ∧
    (∀ s', PStep s s' → s'.cons = s.cons ∧ (s'.next = s.next → pLeft s'.prod < pLeft s.prod)) ∧
    (∀ s', CStep s s' → s'.prod = s.prod ∧ (s'.next = s.next → cLeft s'.cons < cLeft s.cons)) := by
  obtain ⟨S, a, l, stage, k, p, hp, hc⟩ := h.inv hn hr
  refine ⟨?_, ?_, ?_, ?_⟩
  · intro hne
    generalize stage true = x at hp
    cases hpc : s.prod with
    | idle => exact absurd hpc hne
    | start id c => exact ⟨_, .head hpc, rfl⟩
    | saw id c h =>
      by_cases e : h = succ s.r s.r.tail
      · exact ⟨_, .full hpc e, rfl⟩
      · rw [hpc] at hp
        cases hp with
        | sawPut => exact ⟨_, .free hpc e, rfl⟩
        | sawEnd => exact ⟨_, .free hpc e, rfl⟩
        | sawFull => exact ⟨_, .notFull hpc e, rfl⟩
    | free id v =>
      cases e : at? s.r.data s.r.tail with
      | none => exact ⟨_, .panic hpc e, rfl⟩
      | some x => exact ⟨_, .store hpc e, rfl⟩
    | stored id v => exact ⟨_, .tail hpc, rfl⟩
    | out id c r => exact ⟨_, .ret hpc, rfl⟩
  · intro hne
    generalize stage false = x at hc
    cases hpc : s.cons with
    | idle => exact absurd hpc hne
    | start id c => exact ⟨_, .head hpc, rfl⟩
    | saw id c h =>
      by_cases e : h = s.r.tail
      · exact ⟨_, .empty hpc e, rfl⟩
      · by_cases ec : c = .isEmpty
        · subst ec; exact ⟨_, .notEmpty hpc e, rfl⟩
        · exact ⟨_, .some hpc ec e, rfl⟩
    | some id c =>
      cases e : at? s.r.data s.r.head with
      | none => exact ⟨_, .panic hpc e, rfl⟩
      | some x =>
        rw [hpc] at hc
        cases hc with
        | some hcc _ =>
          rcases hcc with rfl | rfl
          · exact ⟨_, .read hpc e, rfl⟩
          · exact ⟨_, .peek hpc e, rfl⟩
    | got id v => exact ⟨_, .take hpc, rfl⟩
    | out id c r => exact ⟨_, .ret hpc, rfl⟩
  · intro s' st
    cases st <;> refine ⟨rfl, ?_⟩ <;> simp_all [pLeft]
  · intro s' st
    cases st <;> refine ⟨rfl, ?_⟩ <;> simp_all [cLeft]

/-! ## The full statement is false -/

/-- The producer is about to look at `head` while the consumer is about to move it. -/
theorem C149_race : ∃ (r : Ring.Ring Nat) (s : St Nat), Ring.new 2 = .ret (some r) ∧ Reach r s ∧
    PAccess s .head false ∧ CAccess s .head true ∧
    s.hist = [.inv 0 (.enqueue 7), .ret 0 (.bool true), .inv 1 .dequeue, .inv 2 (.enqueue 8)] := by
  have h1 := (Reach.init (r := (⟨[0, 0], 3, 0, 0⟩ : Ring.Ring Nat))).step (.prod (.invoke (c := .enqueue 7) rfl trivial))
  have h2 := h1.step (.prod (.head (id := 0) (c := .enqueue 7) rfl))
  have h3 := h2.step (.prod (.free (id := 0) (v := 7) (h := 0) rfl (by decide)))
  have h4 := h3.step (.prod (.store (id := 0) (v := 7) (x := 0) rfl rfl))
  have h5 := h4.step (.prod (.tail (id := 0) (v := 7) rfl))
  have h6 := h5.step (.prod (.ret (id := 0) (c := .enqueue 7) (r := .bool true) rfl))
  have h7 := h6.step (.cons (.invoke (c := .dequeue) rfl trivial))
  have h8 := h7.step (.cons (.head (id := 1) (c := .dequeue) rfl))
  have h9 := h8.step (.cons (.some (id := 1) (c := .dequeue) (h := 0) rfl (by simp) (by decide)))
  have h10 := h9.step (.cons (.read (id := 1) (x := 7) rfl rfl))
  have h11 := h10.step (.prod (.invoke (c := .enqueue 8) rfl trivial))
  exact ⟨_, _, rfl, h11, .head (id := 2) (c := .enqueue 8) rfl, .move (id := 1) (v := 7) rfl, rfl⟩

/-- A ring for one element panics at the second, though it is empty again. -/
theorem C149_worn : ∃ (r : Ring.Ring Nat) (s : St Nat), Ring.new 1 = .ret (some r) ∧ Reach r s ∧
    ¬ Linearizable (queue Nat 1) s.hist := by
  have h1 := (Reach.init (r := (⟨[0], 2, 0, 0⟩ : Ring.Ring Nat))).step (.prod (.invoke (c := .enqueue 7) rfl trivial))
  have h2 := h1.step (.prod (.head (id := 0) (c := .enqueue 7) rfl))
  have h3 := h2.step (.prod (.free (id := 0) (v := 7) (h := 0) rfl (by decide)))
  have h4 := h3.step (.prod (.store (id := 0) (v := 7) (x := 0) rfl rfl))
  have h5 := h4.step (.prod (.tail (id := 0) (v := 7) rfl))
  have h6 := h5.step (.prod (.ret (id := 0) (c := .enqueue 7) (r := .bool true) rfl))
  have h7 := h6.step (.cons (.invoke (c := .dequeue) rfl trivial))
  have h8 := h7.step (.cons (.head (id := 1) (c := .dequeue) rfl))
  have h9 := h8.step (.cons (.some (id := 1) (c := .dequeue) (h := 0) rfl (by simp) (by decide)))
  have h10 := h9.step (.cons (.read (id := 1) (x := 7) rfl rfl))
  have h11 := h10.step (.cons (.take (id := 1) (v := 7) rfl))
  have h12 := h11.step (.prod (.invoke (c := .enqueue 8) rfl trivial))
  have h13 := h12.step (.prod (.head (id := 2) (c := .enqueue 8) rfl))
  have h14 := h13.step (.prod (.free (id := 2) (v := 8) (h := 1) rfl (by decide)))
  have h15 := h14.step (.prod (.panic (id := 2) (v := 8) rfl rfl))
  have h16 := h15.step (.prod (.ret (id := 2) (c := .enqueue 8) (r := .panic) rfl))
  refine ⟨_, _, rfl, h16, ?_⟩
  rintro ⟨S, l, hl⟩
  obtain ⟨c, hc⟩ := hl.returned 2 .panic (by simp)
  have key : ∀ S l, Legal (queue Nat 1) S l → ∀ id c, (id, c, Res.panic) ∉ S := by
    intro S l hl
    induction hl with
    | nil => simp
    | snoc hl hs ih =>
      intro id c hm
      rcases List.mem_append.1 hm with hm | hm
      · exact ih id c hm
      · simp at hm
        obtain ⟨rfl, rfl, rfl⟩ := hm
        cases hs
  exact key S l hl.legal 2 c hc

/-- **C149 is false**: `head` and `tail` are shared without synchronization, and a ring that has accepted as many elements as it has
room for panics. -/
theorem C149_refuted : ¬ C149_full := by
  intro hf
  obtain ⟨r, s, hr, h, hp, hc, _⟩ := C149_race
  exact (hf Nat 2 r (by decide) hr s h).2 ⟨_, _, _, hp, hc, .inr rfl⟩

/-- The state of `C149_race` meets the hypotheses of the other theorems. -/
example : ∃ (r : Ring.Ring Nat) (s : St Nat), Ring.new 2 = .ret (some r) ∧ Reach r s ∧ s.prod ≠ .idle ∧ s.cons ≠ .idle ∧
    offers s.hist ≤ (2 : Int).toNat := by
  obtain ⟨r, s, hr, h, hp, hc, e⟩ := C149_race
  refine ⟨r, s, hr, h, ?_, ?_, by rw [e]; decide⟩
  · cases hp with
    | head e => rw [e]; simp
  · cases hc with
    | move e => rw [e]; simp

end Verif.RingPair
