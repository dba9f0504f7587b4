import Verif.DecOrder.Lemmas
/-!
# C112: the Decoupler keeps the order of one producer

One goroutine writes, one reads. Even then, and even if nothing is dropped, payloads can be shown in the wrong
order, and `Next` can wait for ever although no call of `Write` is under way: a call that finds its slot taken
goes on to the next ticket, and if the reader has meanwhile made room the payload lands behind an empty slot
(`C112_refuted`, `C112_hang`). As long as no call finds its slot taken, the order is kept (`C112_partial`).
-/
namespace Verif.DecOrder
open Verif.Decouple
variable {α : Type} {size : Nat} {payload : Nat → List α}

/-- C112 in full: one producer, no payload dropped. It is false. -/
def C112_full : Prop := ∀ (size : Nat) (payload : Nat → List Nat) (s : St Nat), size ≠ 0 → size < W - 2 →
  Only Turn size payload s → s.attempts < W - 2 → (∀ j, s.wpc j = .dropped → payload j = []) → InOrder payload s

/-- **C112, what does hold**: if no call finds its slot taken, what `Next` shows are the payloads of the first
calls in order, `Next` does not wait once the calls of `Write` have returned, nothing is dropped, and when `Next`
finds nothing, all have been shown. Missing from the full claim: calls that find their slot taken, and try again. -/
theorem C112_partial {s : St α} (hs : size ≠ 0) (hz : size < W - 2)
    (r : Only (fun s s' => Turn s s' ∧ Room s s') size payload s) (ha : s.attempts < W - 2) :
    InOrder payload s ∧ ∀ j, s.wpc j = .dropped → payload j = [] := by
  obtain ⟨m, f, o⟩ := ord_reach hs hz r ha
  have hv := viewed_le o
  have hfa := o.f_le
  refine ⟨⟨?_, fun st i hi => ?_, fun st hi hl n hn => ?_⟩, fun j => (no_drop r j).2⟩
  · obtain ⟨k, hk⟩ := pay_take (payload := payload) (m + 1) (viewed s.rd s.rpc)
    exact ⟨k, by rw [o.log, hk]⟩
  · have e := o.slot_ i (by simp [hi])
    have hl := o.len
    have hp := o.pos (by rw [hi]; simp)
    have hni : s.wpc m ≠ .incr := by rcases st m with h | h | h <;> rw [h] <;> simp
    rw [if_neg hni, hi] at hl
    have hc : cleared s.rd s.rpc = s.rd := by rw [hi]; rfl
    simp [cleared] at hl
    have := (o.full s.rd (by rw [hc]) (by omega)).1
    rw [e, this]
    unfold emptyL busyL W at *
    omega
  · have hni : s.wpc m ≠ .incr := by rcases st m with h | h | h <;> rw [h] <;> simp
    have hl' := o.len
    rw [if_neg hni, hi] at hl'
    simp [cleared] at hl'
    have hlog := o.log
    rw [hi] at hlog
    simp only [viewed] at hlog
    have hrd : s.rd = f := by omega
    have hlt : ∀ j, j < n ↔ s.wpc j ≠ .new := fun j => by rw [Ne, hn j]; omega
    have hmn : ∀ j, j < m → j < n := fun j hj => (hlt j).2 (by rcases o.before j hj with h | h <;> rw [h] <;> simp)
    have hgt : ∀ j, m < j → n ≤ j := fun j hj => (hn j).1 (o.after j hj)
    have h1 : m ≤ n := by
      by_contra hx
      exact absurd (hmn (m - 1) (by omega)) (by have := hmn n (by omega); omega)
    have h2 := hgt (m + 1) (by omega)
    have hc := o.cur
    rw [hlog, hrd]
    rcases st m with h | h | h <;> rw [h] at hc
    · have : n = m := by have := (hn m).1 h; omega
      rw [this]
      obtain ⟨t, ht⟩ := pay_prefix (payload := payload) m
      rw [ht, hc.1, List.take_left]
    · have : n = m + 1 := by have := (hlt m).2 (by rw [h]; simp); omega
      rw [this, hc.2.1, pay_succ_ne hc.1, List.take_of_length_le (by simp)]
    · have : n = m + 1 := by have := (hlt m).2 (by rw [h]; simp); omega
      rw [this, hc.2.1, pay_succ_nil hc.1, List.take_of_length_le (by simp)]

/-- Size 2. Two writes are accepted; the third finds slot 0 taken; the reader shows both; the third call goes on
to slot 1. All calls have returned, nothing was dropped, one payload is stored - and `Next` waits for slot 0. -/
theorem C112_hang : ∃ s : St Nat, Only Turn 2 (fun j => [j]) s ∧ s.attempts = 4 ∧ (∀ j, s.wpc j ≠ .dropped) ∧
    Settled s ∧ s.len = 1 ∧ s.log = [[0], [1]] ∧ s.rpc = .spin 0 ∧ s.lock 0 = emptyL ∧ s.wr = 3 ∧ s.lock 1 = 3 ∧ s.buf 1 = [2] ∧
    s.wpc 0 = .accepted ∧ s.wpc 1 = .accepted ∧ s.wpc 2 = .accepted ∧ ∀ j, 2 < j → s.wpc j = .new := by
  have hok : ∀ s s' : St Nat, Turn s s' ∧ Room s s' → Turn s s' := fun _ _ h => h.1
  have a := only_write (size := 2) (payload := fun j => [j]) hok (by decide) .init (j := 0) (ts := 0) (i := 0) (by simp) rfl
    (by intro i hi; omega) (by simp [init]; decide) rfl rfl
  have b := only_write hok (by decide) a (j := 1) (ts := 1) (i := 1) (by simp) rfl
    (by intro i hi; obtain rfl : i = 0 := by omega
        exact .inl rfl) rfl rfl rfl
  have c1 := b.step (.call _ 2 rfl (by simp)) (tr_call (by simp) (by
    intro i hi
    obtain rfl | rfl : i = 0 ∨ i = 1 := by omega
    · exact .inl rfl
    · exact .inl rfl)).1
  have c2 := c1.step (.add _ 2 rfl (by decide)) (tr_at rfl (by simp [St.at]) (by simp)).1
  have c3 := c2.step (.loadFull _ 2 2 rfl (by decide) (by decide)) (by
    intro j h1 h2
    by_cases e : j = 2
    · subst e; simp [St.at] at h1
    · rw [at_other _ _ e] at h2; exact absurd h1 h2)
  have d := only_next hok (by decide) c3 (i := 0) rfl (by decide) rfl (by decide) (by decide)
  have c4 := d.step (.chkRetry _ 2 rfl (by decide)) (tr_at rfl (by simp [St.at]) (by simp)).1
  have e := only_next hok (by decide) c4 (i := 1) rfl (by decide) rfl (by decide) (by decide)
  have c5 := only_add hok (by decide) e (j := 2) (ts := 3) (i := 1) rfl rfl rfl rfl
  have g := c5.step (.next _ rfl (by decide) (by decide)) (tr_same rfl).1
  refine ⟨_, g, rfl, ?_, ?_, rfl, rfl, rfl, rfl, rfl, rfl, rfl, rfl, rfl, rfl, ?_⟩
  · intro j
    simp only [St.at, init]
    repeat' split
    all_goals simp
  · intro j
    simp only [St.at, init]
    repeat' split
    all_goals simp
  · intro j hj
    simp only [St.at, init]
    repeat rw [if_neg (by omega)]

/-- One more write in that state: it lands in slot 0, and is shown before the one written before it. -/
theorem C112_order : ∃ s : St Nat, Only Turn 2 (fun j => [j]) s ∧ s.attempts = 5 ∧ (∀ j, s.wpc j ≠ .dropped) ∧
    s.log = [[0], [1], [3]] := by
  obtain ⟨s, r, h1, h2, h3, h4, h5, h6, h7, h8, h9, h10, h11, h12, h13, h14⟩ := C112_hang
  have hok : ∀ s s' : St Nat, Turn s s' ∧ Room s s' → Turn s s' := fun _ _ h => h.1
  have a := only_write hok (by decide) r (j := 3) (ts := 4) (i := 0) (by simp) (h14 3 (by omega)) (by
    intro i hi
    obtain rfl | rfl | rfl : i = 0 ∨ i = 1 ∨ i = 2 := by omega
    · exact .inl h11
    · exact .inl h12
    · exact .inl h13) (by rw [h8]; rfl) rfl h7
  have b := a.step (.spinEnd _ 0 h6 (by simp; decide) (by simp; decide)) (tr_same rfl).1
  have c := b.step (.view _ 0 rfl) (tr_same rfl).1
  refine ⟨_, c, by simp [h1], fun j => ?_, by simp [h5]⟩
  simp only
  split
  · simp
  · exact h2 j

/-- **C112 is false**: the payloads 0, 1, 2, 3 of one producer, none dropped, are shown as 0, 1, 3. -/
theorem C112_refuted : ¬ C112_full := by
  intro hf
  obtain ⟨s, r, h1, h2, h3⟩ := C112_order
  obtain ⟨m, hm⟩ := (hf 2 _ s (by decide) (by decide) r (by rw [h1]; decide) (fun j h => absurd h (h2 j))).prefix_
  rw [h3] at hm
  have hl : pay (fun j => [j]) m = (List.range m).map fun j => [j] := by
    unfold pay
    rw [List.filter_eq_self]
    simp
  rw [hl] at hm
  have := congrArg (·[2]?) hm
  simp at this
  obtain ⟨_, h⟩ := List.getElem?_eq_some_iff.1 this
  simp at h

/-- Waiting for ever contradicts the full claim as well. -/
example : ∃ s : St Nat, Only Turn 2 (fun j => [j]) s ∧ ¬ InOrder (fun j => [j]) s := by
  obtain ⟨s, r, _, _, h3, _, _, h6, h7, _⟩ := C112_hang
  exact ⟨s, r, fun o => (o.returns h3 0 h6).1 h7⟩

/-- A run as in `C112_partial`, with more writes than slots. -/
example : ∃ s : St Nat, Only (fun s s' => Turn s s' ∧ Room s s') 2 (fun j => [j]) s ∧ s.attempts < W - 2 ∧
    s.log = [[0]] ∧ s.len = 2 ∧ s.wpc 2 = .accepted := by
  have hok : ∀ s s' : St Nat, Turn s s' ∧ Room s s' → Turn s s' ∧ Room s s' := fun _ _ h => h
  have a := only_write (size := 2) (payload := fun j => [j]) hok (by decide) .init (j := 0) (ts := 0) (i := 0) (by simp) rfl
    (by intro i hi; omega) (by simp [init]; decide) rfl rfl
  have b := only_write hok (by decide) a (j := 1) (ts := 1) (i := 1) (by simp) rfl
    (by intro i hi; obtain rfl : i = 0 := by omega
        exact .inl rfl) rfl rfl rfl
  have d := only_next hok (by decide) b (i := 0) rfl (by decide) rfl (by decide) (by decide)
  have c := only_write hok (by decide) d (j := 2) (ts := 2) (i := 0) (by simp) rfl (by
    intro i hi
    obtain rfl | rfl : i = 0 ∨ i = 1 := by omega
    · exact .inl rfl
    · exact .inl rfl) rfl rfl rfl
  exact ⟨_, c, by decide, rfl, rfl, rfl⟩

example : pay (fun j => if j = 1 then [] else [j]) 3 = [[0], [2]] := by decide

end Verif.DecOrder
