import Verif.DecNone.Spec
import Verif.DecOrder.Props
import Verif.Decouple.Wrap
/-!
# C123: when `Next` returns false
-/
namespace Verif.DecNone
open Verif.Decouple Verif.DecOrder

variable {α : Type} {size : Nat} {payload : Nat → List α} {s : St α}

/-- The full statement: when `Next` returns false, what was accepted has been shown. -/
def C123_full : Prop := ∀ (size : Nat) (payload : Nat → List Nat) (s : St Nat), size ≠ 0 → size < W - 2 →
  Reach size payload s → s.attempts < W - 2 → Finds s → AllShown payload s

/-- **C123, how far it can be wrong**: when `Next` returns false, the accepted payloads not yet shown are no more than the calls
of `Write` that are under way, whose payload has been shown already, and that have not yet counted it (line 64). -/
theorem C123_count (hs : size ≠ 0) (hz : size < W - 2) (r : Reach size payload s) (ha : s.attempts < W - 2) (hn : Finds s) :
    ∃ js, Shown payload s js ∧
      AtLeast (fun j => s.wpc j = .accepted ∧ j ∉ js) (fun k => s.wpc k = .incr ∧ k ∈ js) := by
  obtain ⟨own, sl, js, n⟩ := inv_reach r ha
  obtain ⟨inc, fl, c⟩ := cnt_reach hs hz r ha
  have done_iff : ∀ j, (s.wpc j).done = true ↔ s.wpc j = .incr ∨ s.wpc j = .accepted := fun j => by
    cases s.wpc j <;> simp [WPc.done]
  refine ⟨js, ⟨n.jsN, n.jsLog.symm, fun j hj => (done_iff j).1 (n.jsDone j hj)⟩, fun l hl hp => ?_⟩
  have hlen : inc.length = fl.length := by
    have := c.len
    rw [hn.2, hn.1] at this
    simpa using this
  have lost : ∀ j, (s.wpc j).done = true → j ∉ js → full (s.lock (sl j)) = true ∧ own (sl j) = j := fun j h h' =>
    (n.notLost j h).resolve_left h'
  -- the calls that hold a slot
  let m := l ++ inc.filter (fun k => k ∉ js)
  have hm : ∀ j ∈ m, (s.wpc j).done = true ∧ j ∉ js := fun j hj => by
    rcases List.mem_append.1 hj with h | h
    · exact ⟨(done_iff j).2 (.inr (hp j h).1), (hp j h).2⟩
    · have := List.mem_filter.1 h
      exact ⟨(done_iff j).2 (.inl ((c.incM j).1 this.1)), by simpa using this.2⟩
  have hmN : m.Nodup := List.nodup_append.2 ⟨hl, c.incN.filter _, fun a ha b hb e => by
    have h1 := (hp a ha).1
    have h2 := (c.incM b).1 (List.mem_filter.1 hb).1
    rw [e, h2] at h1; cases h1⟩
  have hsN : (m.map sl).Nodup := by
    refine hmN.map_on fun a ha b hb e => ?_
    rw [← (lost a (hm a ha).1 (hm a ha).2).2, ← (lost b (hm b hb).1 (hm b hb).2).2, e]
  have hsub : m.map sl ⊆ fl := fun i hi => by
    obtain ⟨j, hj, rfl⟩ := List.mem_map.1 hi
    exact (c.flM _).2 (lost j (hm j hj).1 (hm j hj).2).1
  have h1 : m.length ≤ fl.length := by simpa using (List.subperm_of_subset hsN hsub).length_le
  have h2 : m.length = l.length + (inc.filter (fun k => k ∉ js)).length := by simp [m]
  have h3 : inc.length = (inc.filter (fun k => k ∈ js)).length + (inc.filter (fun k => k ∉ js)).length := by
    rw [List.length_eq_length_filter_add (l := inc) (fun k => decide (k ∈ js))]
    congr 2
    exact List.filter_congr fun x _ => by simp
  refine ⟨(inc.filter (fun k => k ∈ js)).take l.length, (c.incN.filter _).sublist (List.take_sublist _ _),
    by rw [List.length_take]; omega, fun k hk => ?_⟩
  have := List.mem_filter.1 (List.mem_of_mem_take hk)
  exact ⟨(c.incM k).1 this.1, by simpa using this.2⟩

/-- **C123** if no call of `Write` stands before line 64. Missing: a call of `Next` while one does, for which it is false
(`C123_refuted`, `C123_refuted_turns`). -/
theorem C123_partial (hs : size ≠ 0) (hz : size < W - 2) (r : Reach size payload s) (ha : s.attempts < W - 2) (hn : Finds s)
    (hq : ∀ j, s.wpc j ≠ .incr) : AllShown payload s := by
  obtain ⟨js, h1, h2⟩ := C123_count hs hz r ha hn
  refine ⟨js, h1, fun j hj => ?_⟩
  by_contra hc
  obtain ⟨m, _, h4, h5⟩ := h2 [j] (by simp) (by simp [hj, hc])
  match m, h4 with
  | [k], _ => exact hq k (h5 k (by simp)).1

/-- When the calls of `Write` made so far have all returned. -/
theorem C123_settled (hs : size ≠ 0) (hz : size < W - 2) (r : Reach size payload s) (ha : s.attempts < W - 2) (hn : Finds s)
    (hq : Settled s) : AllShown payload s :=
  C123_partial hs hz r ha hn fun j h => by rcases hq j with g | g | g <;> rw [h] at g <;> cases g

/-- With one slot a payload is counted before it is shown. -/
theorem one_slot (r : Reach 1 payload s) (hp : ∀ i j, payload i = payload j → i = j) (ha : s.attempts < W - 2) :
    ∀ j, payload j ∈ s.log → s.wpc j = .accepted := by
  induction r with
  | init => intro j hj; simp [init] at hj
  | @step s s' r st ih =>
    have ha' := Nat.lt_of_le_of_lt (Decouple.attempts_mono st) ha
    have ih := ih ha'
    cases st with
    | view i h =>
      intro j hj
      simp only [List.mem_append, List.mem_singleton] at hj
      rcases hj with hj | hj
      · exact ih j hj
      · obtain ⟨own, sl, js, n⟩ := inv_reach r ha'
        obtain ⟨inc, fl, c⟩ := cnt_reach (by decide) (by decide) r ha'
        have hf := n.rdr i (by rw [h]; rfl)
        obtain ⟨g1, g2, _⟩ := n.fullS i hf
        have e : j = own i := hp _ _ (hj.trans g2)
        have h1 := nodup_lt c.flN c.flS
        have h2 := c.pos (by rw [h]; rfl)
        have h3 := c.len
        rw [h] at h3
        simp only [reduceCtorEq, if_false, Nat.add_zero] at h3
        have h4 : inc = [] := List.length_eq_zero_iff.1 (by omega)
        have h5 : s.wpc (own i) ≠ .incr := fun g => by
          have := (c.incM _).2 g
          rw [h4] at this; cases this
        subst e
        show s.wpc (own i) = .accepted
        revert g1 h5
        cases s.wpc (own i) <;> simp [WPc.done]
    | _ =>
      intro j hj
      have := ih j hj
      try simp only [St.at] at *
      grind

/-- **C123** in full for a decoupler with one slot, the payloads being distinct. -/
theorem C123_one_slot (hp : ∀ i j, payload i = payload j → i = j) (r : Reach 1 payload s) (ha : s.attempts < W - 2)
    (hn : Finds s) : AllShown payload s ∧ ∀ j, s.wpc j = .accepted ↔ payload j ∈ s.log := by
  have key := one_slot r hp ha
  obtain ⟨js, h1, h2⟩ := C123_count (by decide) (by decide) r ha hn
  have all : ∀ j, s.wpc j = .accepted → j ∈ js := fun j hj => by
    by_contra hc
    obtain ⟨m, _, h4, h5⟩ := h2 [j] (by simp) (by simp [hj, hc])
    match m, h4 with
    | [k], _ =>
      obtain ⟨g1, g2⟩ := h5 k (by simp)
      have := key k (by rw [h1.2.1]; exact List.mem_map_of_mem g2)
      rw [g1] at this; cases this
  exact ⟨⟨js, h1, all⟩, fun j => ⟨fun h => by rw [h1.2.1]; exact List.mem_map_of_mem (all j h), key j⟩⟩

/-- Two slots, two writers. The first has stored its payload and not yet counted it; the second has returned. `Next` shows the first
payload, and then returns false though the second is there. -/
theorem two_writers : ∃ s : St Nat, Reach 2 (fun j => [j]) s ∧ s.attempts = 2 ∧ Finds s ∧ s.log = [[0]] ∧ s.wpc 0 = .incr ∧
    s.wpc 1 = .accepted ∧ s.buf 1 = [1] := by
  have r1 := Reach.init (size := 2) (payload := fun j => [j]) |>.step (.call _ 0 rfl (by simp))
  have r2 := r1.step (.add _ 0 rfl (by decide))
  have r3 := r2.step (.loadEmpty _ 0 0 rfl rfl)
  have r4 := r3.step (.casOk _ 0 0 rfl rfl)
  have r5 := r4.step (.copy _ 0 0 rfl)
  have r6 := r5.step (.store _ 0 0 rfl)
  have r7 := write_once (j := 1) (ts := 1) (i := 1) (by decide) r6 (by simp) rfl rfl rfl rfl
  have r8 := next_once (i := 0) (by decide) r7 rfl (by decide) rfl (by decide)
  exact ⟨_, r8, rfl, ⟨rfl, by decide⟩, rfl, rfl, rfl, rfl⟩

/-- **C123 is false** of two writers. -/
theorem C123_refuted : ¬ C123_full := by
  intro hf
  obtain ⟨s, r, h1, h2, h3, _, h5, _⟩ := two_writers
  obtain ⟨js, ⟨_, g2, _⟩, g4⟩ := hf 2 _ s (by decide) (by decide) r (by rw [h1]; decide) h2
  have := List.mem_map_of_mem (f := fun j => [j]) (g4 1 h5)
  rw [← g2, h3] at this
  simp at this

/-- Calls of `Write` made one after the other (`C112_hang`, and then one more that lands in the slot `Next` waits for). -/
theorem one_writer : ∃ s : St Nat, Only Turn 2 (fun j => [j]) s ∧ s.attempts = 5 ∧ Finds s ∧ s.log = [[0], [1], [3]] ∧
    s.wpc 2 = .accepted ∧ s.wpc 3 = .incr ∧ s.buf 1 = [2] := by
  obtain ⟨s, r, h1, h2, h3, h4, h5, h6, h7, h8, h9, h10, h11, h12, h13, h14⟩ := C112_hang
  have tr : ∀ {s : St Nat} {p}, s.wpc 3 ≠ .new → Turn s (s.at 3 p) := by
    intro s p hne j a b
    by_cases e : j = 3
    · subst e; exact absurd a hne
    · rw [at_other _ _ e] at b; exact absurd a b
  have r1 := r.step (.call _ 3 (h14 3 (by omega)) (by simp)) (by
    intro j a b i hi
    by_cases e : j = 3
    · subst e
      obtain rfl | rfl | rfl : i = 0 ∨ i = 1 ∨ i = 2 := by omega
      · exact .inl h11
      · exact .inl h12
      · exact .inl h13
    · rw [at_other _ _ e] at b; exact absurd a b)
  have r2 := r1.step (.add _ 3 (by simp [St.at]) (by decide)) (tr (by simp [St.at]))
  have ht : (((s.at 3 .add).wr + 1) % W) = 4 := by simp only [St.at, h8]; rfl
  rw [ht] at r2
  have r3 := r2.step (.loadEmpty _ 3 4 (by simp [St.at]) h7) (tr (by simp [St.at]))
  have r4 := r3.step (.casOk _ 3 4 (by simp [St.at]) h7) (tr (by simp [St.at]))
  have r5 := r4.step (.copy _ 3 4 (by simp [St.at])) (tr (by simp [St.at]))
  have r6 := r5.step (.store _ 3 4 (by simp [St.at])) (tr (by simp [St.at]))
  have e0 : slot 2 4 = 0 := rfl
  have r7 := r6.step (.spinEnd _ 0 h6 (by simp [St.at, e0]; decide) (by simp [St.at, e0]; decide)) (tr_same rfl).1
  have r8 := r7.step (.view _ 0 rfl) (tr_same rfl).1
  have r9 := r8.step (.clear _ 0 rfl) (tr_same rfl).1
  have r10 := r9.step (.decr _ rfl) (tr_same rfl).1
  refine ⟨_, r10, by simp [St.at, h1], ⟨rfl, ?_⟩, by simp [St.at, h5, e0], by simp [St.at, h13], by simp [St.at], by simp [St.at, e0, h10]⟩
  simp only [St.at, h4]; rfl

theorem Only.reach {ok : St α → St α → Prop} (r : Only ok size payload s) : Reach size payload s := by
  induction r with
  | init => exact .init
  | step _ st _ ih => exact ih.step st

/-- It is false even if the calls of `Write` are made one after the other. -/
theorem C123_refuted_turns : ∃ s : St Nat, Only Turn 2 (fun j => [j]) s ∧ s.attempts < W - 2 ∧ Finds s ∧
    ¬ AllShown (fun j => [j]) s := by
  obtain ⟨s, r, h1, h2, h3, h4, _⟩ := one_writer
  refine ⟨s, r, by rw [h1]; decide, h2, ?_⟩
  rintro ⟨js, ⟨_, g2, _⟩, g4⟩
  have := List.mem_map_of_mem (f := fun j => [j]) (g4 2 h4)
  rw [← g2, h3] at this
  simp at this

/-- Two accepted, both shown, and `Next` returns false. -/
example : ∃ s : St Nat, Reach 2 (fun j => [j]) s ∧ s.attempts < W - 2 ∧ Finds s ∧ (∀ j, s.wpc j ≠ .incr) ∧ s.log = [[0], [1]] := by
  have r1 := write_once (payload := fun j => [j]) (size := 2) (j := 0) (ts := 0) (i := 0) (by decide) .init (by simp) rfl rfl rfl rfl
  have r2 := write_once (j := 1) (ts := 1) (i := 1) (by decide) r1 (by simp) rfl rfl rfl rfl
  have r3 := next_once (i := 0) (by decide) r2 rfl (by decide) rfl (by decide)
  have r4 := next_once (i := 1) (by decide) r3 rfl (by decide) rfl (by decide)
  refine ⟨_, r4, by decide, ⟨rfl, by decide⟩, fun j => ?_, rfl⟩
  simp only [init]
  repeat' split
  all_goals simp

/-- One slot, one payload shown. -/
example : ∃ s : St Nat, Reach 1 (fun j => [j]) s ∧ s.attempts < W - 2 ∧ Finds s ∧ s.log = [[0]] := by
  have r1 := write_once (payload := fun j => [j]) (size := 1) (j := 0) (ts := 0) (i := 0) (by decide) .init (by simp) rfl rfl rfl rfl
  have r2 := next_once (i := 0) (by decide) r1 rfl (by decide) rfl (by decide)
  exact ⟨_, r2, by decide, ⟨rfl, by decide⟩, rfl⟩

end Verif.DecNone
