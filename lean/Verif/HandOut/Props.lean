import Verif.HandOut.Lemmas
/-!
# C158: a stack or queue behind a mutex hands every element on exactly once
-/
namespace Verif.HandOut
open Verif.Conc Verif.Linked Verif.Dsx

variable {T : Type} [Inhabited T]

/-- **C158, what does hold**: in every schedule of any number of goroutines the slice stack and the ring (of any capacity, worn out or
not) hand every element on exactly once. Missing from the full claim: the two linked implementations. -/
theorem C158_partial :
    (∀ (h : Go.Hp T) s, RW.Reach (sliceStack h) s → ∃ M, Accounts stackKind s.hist M) ∧
    (∀ (n : Int) (q : Ring.Ring T), 0 < n → n < 2 ^ 63 - 1 → Ring.new n = .ret (some q) →
      ∀ s, RW.Reach (ringQueue q) s → ∃ M, Accounts queueKind s.hist M) :=
  ⟨fun _ _ r => accounts (lifo_bag (slice_lifo r)) (unique_inv behind_reads r),
   fun _ _ h0 h1 hq _ r => accounts (worn_bag (ring_worn h0 h1 hq r)) (unique_inv behind_reads r)⟩

/-- The slice stack is a stack for all goroutines together. -/
theorem C158_stack {h : Go.Hp T} {s : RW.St _ _ _ _} (r : RW.Reach (sliceStack h) s) : Linearizable (lifo T) s.hist := slice_lifo r

/-- The ring is a bounded queue for all goroutines together, as long as `Enqueue` is called no more often than there is room. -/
theorem C158_ring {n : Int} (h0 : 0 < n) (h1 : n < 2 ^ 63 - 1) {q : Ring.Ring T} (hq : Ring.new n = .ret (some q))
    {s : RW.St _ _ _ _} (r : RW.Reach (ringQueue q) s) (hn : putsIn queueKind s.hist ≤ n.toNat) : Linearizable (fifo T n.toNat) s.hist := by
  obtain ⟨S, x, l⟩ := ring_worn h0 h1 hq r
  exact ⟨S, x.2, (worn_fifo l.legal (Nat.le_trans (puts_le l) hn)).1, l.once, l.invoked, l.returned, l.realtime⟩

/-- The linked stack behind a mutex: what is in it is right, what `Pop` shows is not. -/
theorem C158_linked {s : RW.St _ _ _ _} (r : RW.Reach (linkedStack T) s) : Linearizable (lifoBelow T) s.hist := linked_below r

/-- **C158 is false of the code**: a goroutine that uses a linked stack is given the element 1 twice though it was put in once, while 2
and 3 are lost; and the linked queue loses its first element. -/
theorem C158_refuted : ¬ C158_full Nat ∧
    (∃ s, RW.Reach (linkedStack Nat) s ∧ s.hist = [.inv 0 (.push 1), .ret 0 (.bool true), .inv 1 (.push 2), .ret 1 (.bool true),
      .inv 2 .pop, .ret 2 (.val 1), .inv 3 (.push 3), .ret 3 (.bool true), .inv 4 .pop, .ret 4 (.val 1)]) ∧
    ∃ s, RW.Reach (linkedQueue Nat) s ∧ s.hist = [.inv 0 (.enqueue 1), .ret 0 (.bool true), .inv 1 (.enqueue 2), .ret 1 (.bool true),
      .inv 2 .dequeue, .ret 2 (.val 2), .inv 3 .dequeue, .ret 3 .panic, .inv 4 .dequeue, .ret 4 .none] := by
  have hst : ∃ s, RW.Reach (linkedStack Nat) s ∧ s.hist = [.inv 0 (.push 1), .ret 0 (.bool true), .inv 1 (.push 2), .ret 1 (.bool true),
      .inv 2 .pop, .ret 2 (.val 1), .inv 3 (.push 3), .ret 3 (.bool true), .inv 4 .pop, .ret 4 (.val 1)] := by
    have h0 : RW.Reach (linkedStack Nat) (quiet Stack.new 0 []) := .init
    have h1 := alone (c := .push 1) h0 ⟨⟨none, 0⟩, rfl⟩
    have h2 := alone (c := .push 2) h1 ⟨⟨none, 0⟩, rfl⟩
    have h3 := alone (c := .pop) h2 ⟨⟨none, 0⟩, rfl⟩
    have h4 := alone (c := .push 3) h3 ⟨⟨none, 0⟩, rfl⟩
    have h5 := alone (c := .pop) h4 ⟨⟨none, 0⟩, rfl⟩
    exact ⟨_, h5, rfl⟩
  have hq : ∃ s, RW.Reach (linkedQueue Nat) s ∧ s.hist = [.inv 0 (.enqueue 1), .ret 0 (.bool true), .inv 1 (.enqueue 2), .ret 1 (.bool true),
      .inv 2 .dequeue, .ret 2 (.val 2), .inv 3 .dequeue, .ret 3 .panic, .inv 4 .dequeue, .ret 4 .none] := by
    have h0 : RW.Reach (linkedQueue Nat) (quiet Queue.new 0 []) := .init
    have h1 := alone (c := .enqueue 1) h0 ⟨⟨none, 0⟩, rfl⟩
    have h2 := alone (c := .enqueue 2) h1 ⟨⟨none, 0⟩, rfl⟩
    have h3 := alone (c := .dequeue) h2 ⟨⟨none, 0⟩, rfl⟩
    have h4 := alone (c := .dequeue) h3 ⟨⟨none, 0⟩, rfl⟩
    have h5 := alone (c := .dequeue) h4 ⟨⟨none, 0⟩, rfl⟩
    exact ⟨_, h5, rfl⟩
  refine ⟨fun full => ?_, hst, hq⟩
  obtain ⟨s, r, e⟩ := hst
  obtain ⟨M, a⟩ := full.2.1 s r
  rw [e] at a
  obtain ⟨p, hp⟩ := a.sound 2 1 ⟨.pop, rfl, by simp⟩ (by simp)
  obtain ⟨p', hp'⟩ := a.sound 4 1 ⟨.pop, rfl, by simp⟩ (by simp)
  have one : ∀ q p, M q p → (q = 2 ∨ q = 4) → p = 0 := by
    intro q p h hq
    obtain ⟨-, v, ⟨⟨c, k, hm⟩, -⟩, hv⟩ := a.gives q p h
    have hv1 : v = 1 := by
      rcases hq with rfl | rfl
      · have := hv (.val 1) (by simp); cases this; rfl
      · have := hv (.val 1) (by simp); cases this; rfl
    subst hv1
    simp only [List.mem_cons, List.not_mem_nil, or_false, Event.inv.injEq, reduceCtorEq, false_or] at hm
    rcases hm with ⟨rfl, rfl⟩ | ⟨rfl, rfl⟩ | ⟨rfl, rfl⟩ | ⟨rfl, rfl⟩ | ⟨rfl, rfl⟩ <;> simp_all [stackKind]
  have e1 := one 2 p hp (.inl rfl)
  have e2 := one 4 p' hp' (.inr rfl)
  subst e1 e2
  have := a.once _ _ _ hp hp'
  omega

/-- With the unlock deferred all calls return, also after a panic: without new calls every execution is finite; one that cannot go on
has all calls returned; and such an end can be reached. For any container whose calls end. -/
theorem C158_all_return {σ C : Type} {init : σ} {call : σ → C → Res T → σ → Prop} (tot : ∀ m c, ∃ r m', call m c r m')
    {s : RW.St σ Unit C (Res T)} (h : RW.Reach (behind init call) s) :
    (¬ ∃ f : Nat → RW.St σ Unit C (Res T), f 0 = s ∧
      ∀ n, RW.Step (behind init call) (f n) (f (n + 1)) ∧ (f (n + 1)).next = (f n).next) ∧
    ((¬ ∃ s', RW.Step (behind init call) s s' ∧ s'.next = s.next) → ∀ t, s.pc t = .idle) ∧
    ∃ s', Relation.ReflTransGen (fun a b => RW.Step (behind init call) a b ∧ b.next = a.next) s s' ∧ ∀ t, s'.pc t = .idle :=
  ⟨RW.ends behind_shrinks h, RW.all_return behind_reads (behind_live tot) behind_shrinks h⟩

/-- The calls of all four containers end. -/
theorem C158_total :
    (∀ (m : SliceC.St T) (c : SOp T), ∃ r m', ∃ rt x, SliceC.stackStep m (c.slice rt) = (m', x) ∧ r = ofSlice x) ∧
    (∀ (m : Stack.Stack T) (c : SOp T), ∃ r m', ∃ rt, Stack.step m (c.linked rt) = (m', r)) ∧
    (∀ (m : Queue.Queue T) (c : QOp T), ∃ r m', ∃ rt, Queue.step m (c.linked rt) = (m', r)) ∧
    ∀ (m : Ring.Ring T) (c : QOp T), ∃ r m', ∃ x, Ring.step m c.ring = (m', x) ∧ r = ofRing x :=
  ⟨fun _ _ => ⟨_, _, ⟨none, 0⟩, _, rfl, rfl⟩, fun _ _ => ⟨_, _, ⟨none, 0⟩, rfl⟩, fun _ _ => ⟨_, _, ⟨none, 0⟩, rfl⟩,
    fun _ _ => ⟨_, _, _, rfl, rfl⟩⟩

/-- Without `defer`, once a call has panicked, no call returns any more but those that had given the lock back already. For any
container. -/
theorem C158_without_defer {σ C : Type} {init : σ} {call : σ → C → Res T → σ → Prop} {s s' : RW.St σ Unit C (Res T)} {t id : Nat} {c : C}
    (h : ReachND (behind init call) s) (hp : s.pc t = .held id c .panic)
    (later : Relation.ReflTransGen (NoDefer (behind init call)) s s') :
    s'.pc t = .held id c .panic ∧ ∀ i x, .ret i x ∈ s'.hist → .ret i x ∈ s.hist ∨ ∃ t' c', s.pc t' = .out i c' x := by
  have : ReachND (behind init call) s' ∧ s'.pc t = .held id c .panic ∧
      (∀ i x, .ret i x ∈ s'.hist → .ret i x ∈ s.hist ∨ ∃ t' c', s.pc t' = .out i c' x) ∧
      (∀ t' i c' x, s'.pc t' = .out i c' x → s.pc t' = .out i c' x) := by
    induction later with
    | refl => exact ⟨h, hp, fun _ _ hm => .inl hm, fun _ _ _ _ e => e⟩
    | tail _ st ih =>
      obtain ⟨a, b, o, u⟩ := ih
      exact ⟨a.step st, stuck_step a.reach b o u st⟩
  exact ⟨this.2.1, this.2.2.1⟩

/-- That happens with a linked stack at once: `Push(1)` and `Pop()` is enough. The slice stack never panics. -/
theorem C158_panics :
    (∃ s, ReachND (linkedStack Nat) s ∧ ∃ t id, s.pc t = .held id .pop .panic) ∧
    ∀ (h : Go.Hp T) s, RW.Reach (sliceStack h) s → ∀ id, .ret id .panic ∉ s.hist := by
  constructor
  · have h0 : ReachND (linkedStack Nat) (quiet Stack.new 0 []) := .init
    have h1 := aloneND (c := .push 1) h0 ⟨⟨none, 0⟩, rfl⟩ (by simp [Stack.step, Stack.push, SOp.linked])
    have h2 := h1.step ⟨RW.Step.invoke (t := 0) (c := .pop) rfl, fun t id c' hp => by simp [quiet] at hp⟩
    have h3 := h2.step ⟨.lock (t := 0) (id := 1) (c := .pop) rfl rfl rfl rfl, fun t id c' hp => by
      exfalso; simp only [RW.setPc, quiet] at hp; split at hp <;> cases hp⟩
    have h4 := h3.step ⟨.access (t := 0) (id := 1) (c := .pop) (acc := ()) (r := .panic) rfl ⟨⟨none, 0⟩, rfl⟩, fun t id c' hp => by
      exfalso; simp only [RW.setPc, quiet] at hp; split at hp <;> cases hp⟩
    exact ⟨_, h4, 0, 1, rfl⟩
  · intro h s r id hm
    obtain ⟨S, l, lin⟩ := slice_lifo r
    obtain ⟨c, hc⟩ := lin.returned id _ hm
    have : ∀ S (l : List T), Legal (lifo T) S l → ∀ e ∈ S, e.2.2 ≠ .panic := by
      intro S l hl
      induction hl with
      | nil => simp
      | @snoc S l l' i c r _ st ih =>
        intro e he
        rcases List.mem_append.1 he with he | he
        · exact ih e he
        · simp only [List.mem_singleton] at he
          subst he
          rintro rfl
          cases c <;> simp [lifo] at st
    exact this S l lin.legal _ hc rfl

/-- Two goroutines at a slice stack: one pushes while the other's `Pop` waits for the lock, and the `Pop` gets the element. -/
example (h : Go.Hp Nat) : ∃ s, RW.Reach (sliceStack h) s ∧
    s.hist = [.inv 0 .pop, .inv 1 (.push 7), .ret 1 (.bool true), .ret 0 (.val 7)] := by
  obtain ⟨m1, hm1, hr1⟩ : ∃ m1, SliceC.stackStep (SliceC.newStack h) (.push 7 0) = (m1, .bool true) ∧ SliceC.Rep m1 [7] := by
    have := SliceC.stackStep_rep (SliceC.newStack_rep h) (.push 7 0)
    exact ⟨(SliceC.stackStep (SliceC.newStack h) (.push 7 0)).1, Prod.ext rfl this.1, by simpa [SliceC.stackSpec] using this.2⟩
  obtain ⟨m2, hm2⟩ : ∃ m2, SliceC.stackStep m1 .pop = (m2, .val 7) := by
    have := SliceC.stackStep_rep (l := [7]) (by simpa using hr1) .pop
    exact ⟨_, Prod.ext rfl this.1⟩
  have h0 : RW.Reach (sliceStack h) (quiet (SliceC.newStack h) 0 []) := .init
  have h1 := h0.step (.invoke (t := 0) (c := .pop) rfl)
  have h2 := h1.step (.invoke (t := 1) (c := .push 7) rfl)
  have h3 := h2.step (.lock (t := 1) (id := 1) (c := .push 7) rfl rfl rfl rfl)
  have h4 := h3.step (.access (t := 1) (id := 1) (c := .push 7) (acc := ()) (r := .bool true) (m' := m1) rfl
    (by simp only [sliceStack, behind]; exact ⟨⟨none, 0⟩, _, hm1, rfl⟩))
  have h5 := h4.step (.unlock (t := 1) (id := 1) (c := .push 7) (r := .bool true) rfl rfl)
  have h6 := h5.step (.ret (t := 1) (id := 1) (c := .push 7) (r := .bool true) rfl)
  have h7 := h6.step (.lock (t := 0) (id := 0) (c := .pop) rfl rfl rfl rfl)
  have h8 := h7.step (.access (t := 0) (id := 0) (c := .pop) (acc := ()) (r := .val 7) (m' := m2) rfl
    (by simp only [sliceStack, behind]; exact ⟨⟨none, 0⟩, _, hm2, rfl⟩))
  have h9 := h8.step (.unlock (t := 0) (id := 0) (c := .pop) (r := .val 7) rfl rfl)
  have h10 := h9.step (.ret (t := 0) (id := 0) (c := .pop) (r := .val 7) rfl)
  exact ⟨_, h10, rfl⟩

/-- An account of that history: call 0 takes what call 1 put in. -/
example : Accounts stackKind ([.inv 0 .pop, .inv 1 (.push 7), .ret 1 (.bool true), .ret 0 (.val 7)] : List (Event (SOp Nat) (Res Nat)))
    fun q p => q = 0 ∧ p = 1 := by
  refine ⟨?_, ?_, by omega, by omega, ?_, ?_⟩
  · rintro _ _ ⟨rfl, rfl⟩
    exact ⟨⟨.pop, rfl, by simp⟩, 7, ⟨⟨.push 7, rfl, by simp⟩, by simp⟩, by simp⟩
  · rintro _ _ ⟨rfl, rfl⟩ r c ⟨l1, l2, l3, e⟩
    rcases l1 with _ | ⟨a, _ | ⟨b, _ | ⟨d, _ | ⟨f, l1⟩⟩⟩⟩ <;> simp at e
  · rintro q v - h
    simp at h
    exact ⟨1, h.1, rfl⟩
  · rintro e - h
    simp at h

end Verif.HandOut
