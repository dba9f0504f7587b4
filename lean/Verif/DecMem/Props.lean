import Verif.DecMem.Lemmas
/-!
# C104: the decoupler hands over copies
-/
namespace Verif.DecMem
open Verif.Decouple (W emptyL busyL slot full full_iff)

variable {α : Type} {size : Nat} {s : St α}

/-- Later states. -/
abbrev Later (size : Nat) : St α → St α → Prop := Relation.ReflTransGen (Step size)

/-- The full statement of C104: the views read the bytes the slices had when `Write` was called, nothing is used by two
goroutines at a time, and a slice that was shown keeps its bytes. -/
def C104_full : Prop := ∀ (size : Nat) (s : St Nat), size ≠ 0 → size < W - 2 → Reach size s →
  Delivers size s ∧ (∀ a b v, ¬ Race size s a b v) ∧
  ∀ i s', s.rpc = .clear i → Later size s s' → content s'.mem (s.hdr i) = content s.mem (s.hdr i)

/-- **C104** (partial) As long as the ticket counter has been taken fewer than 2^64 - 2 times, the first part holds, byte by
byte: whatever the callers do with their slices after `Write`, and whatever the views do to the bytes they have read.
Missing: that a slice keeps its bytes after the view has returned, which is false. -/
theorem C104_delivers_partial (hs : size ≠ 0) (hz : size < W - 2) (r : Reach size s) (ha : s.attempts < W - 2) :
    Delivers size s := by
  obtain ⟨buf, owner, own, sl, js, i, n⟩ := inv_reach r ha
  obtain ⟨inc, fl, c⟩ := Decouple.cnt_reach hs hz i.reach ha
  have done_iff : ∀ j, (s.wpc j).abs.done = true ↔ s.wpc j = .incr ∨ s.wpc j = .accepted := fun j => by
    cases s.wpc j <;> simp [WPc.abs, Decouple.WPc.done]
  have hrdr : ∀ i, s.rpc.abs.on = some i → full (s.lock i) = true := n.rdr
  refine ⟨⟨js, n.jsN, n.jsLog.symm, fun j hj => (done_iff j).1 (n.jsDone j hj), fun j h h' => ?_⟩, fun x h got g => ?_⟩
  · rcases n.notLost j ((done_iff j).2 (.inr h)) with g | ⟨g1, g2⟩
    · exact absurd g h'
    · obtain ⟨f1, f2, f3, f4⟩ := n.fullS _ g1
      rw [g2] at f2 f4
      refine ⟨sl j, c.flS _ ((c.flM _).2 g1), ?_⟩
      have hc : s.rpc ≠ .clear (sl j) := fun e => h' (f4.2 (by simp [St.abs, e, RPc.abs]))
      by_cases hv : ∃ h got, s.rpc = .view (sl j) h got
      · obtain ⟨h0, got, e⟩ := hv
        refine .inr ⟨h0, got, e, ?_⟩
        have := (i.view _ _ _ e).2.2.1
        have f2' : buf (sl j) = s.arg j := f2
        rwa [f2'] at this
      · refine .inl ((i.full _ g1 hc (fun h0 got e => hv ⟨h0, got, e⟩)).trans f2)
  · obtain ⟨v1, v2, v3, v4⟩ := i.view x h got g
    obtain ⟨f1, f2, f3, f4⟩ := n.fullS x (hrdr x (by rw [g]; rfl))
    have f2' : buf x = s.arg (own x) := f2
    rw [f2'] at v2 v3 v4
    exact ⟨own x, (done_iff _).1 f1, v3, v2, v4⟩

/-- **C104** (partial) Nor are two goroutines ever about to use the same byte or slot, not even to read it. -/
theorem C104_no_race_partial (r : Reach size s) (ha : s.attempts < W - 2) {a b : Actor} {v : Var} : ¬ Race size s a b v := by
  obtain ⟨buf, owner, own, sl, js, i, n⟩ := inv_reach r ha
  have hold : ∀ j ts, (s.wpc j).abs.holds = some ts → s.lock (slot size ts) = busyL ∧ own (slot size ts) = j := n.hold
  have hrdr : ∀ i, s.rpc.abs.on = some i → full (s.lock i) = true := n.rdr
  have hb : full busyL = false := by decide
  -- each use belongs to a slot that its goroutine holds
  have key : ∀ a v, Uses size s a v → ∃ x, (v = .slot x ∨ ∃ y, v = .byte y ∧ owner y = x) ∧
      ((∃ j, a = .writer j ∧ s.lock x = busyL ∧ own x = j) ∨ (a = .reader ∧ full (s.lock x) = true)) := by
    intro a v u
    cases u with
    | grow j ts h => exact ⟨_, .inl rfl, .inl ⟨j, rfl, hold j ts (by rw [h]; rfl)⟩⟩
    | fill j ts b c k h h1 =>
      obtain ⟨f1, f2, f3, f4⟩ := i.fill j ts b c k h
      exact ⟨slot size ts, .inr ⟨_, rfl, (f3 k (by omega)).2⟩, .inl ⟨j, rfl, hold j ts (by rw [h]; rfl)⟩⟩
    | assign j ts b c k h => exact ⟨_, .inl rfl, .inl ⟨j, rfl, hold j ts (by rw [h]; rfl)⟩⟩
    | look x h => exact ⟨x, .inl rfl, .inr ⟨rfl, hrdr x (by rw [h]; rfl)⟩⟩
    | touch x h got p hp hc =>
      refine ⟨x, .inr ⟨_, rfl, ?_⟩, .inr ⟨rfl, hrdr x (by rw [hp]; rfl)⟩⟩
      have v1 := (i.view x h got hp).1
      rw [v1] at hc ⊢; exact ((i.hdr x).2 p hc).2
  rintro ⟨hne, ua, ub⟩
  obtain ⟨x, hx, ax⟩ := key _ _ ua
  obtain ⟨y, hy, ay⟩ := key _ _ ub
  have e : y = x := by
    rcases hx with rfl | ⟨z, rfl, hz⟩ <;> rcases hy with e | ⟨z', e, hz'⟩ <;> cases e
    · rfl
    · rw [← hz, ← hz']
  subst e
  rcases ax with ⟨j, rfl, l1, l2⟩ | ⟨rfl, l1⟩ <;> rcases ay with ⟨j', rfl, l3, l4⟩ | ⟨rfl, l3⟩
  · exact hne (by rw [← l2, ← l4])
  · rw [l1, hb] at l3; cases l3
  · rw [l3, hb] at l1; cases l1
  · exact hne rfl

/-- **C104** (partial) The bytes of a slot are changed only by a `Write` that is copying into this slot and by the view that
has it in hand. -/
theorem C104_changes_partial {s' : St α} (r : Reach size s) (ha : s.attempts < W - 2) (st : Step size s s') {x : Nat}
    (hc : content s'.mem (s.hdr x) ≠ content s.mem (s.hdr x)) :
    (∃ j ts b c k, s.wpc j = .fill ts b c k ∧ slot size ts = x) ∨ ∃ h got, s.rpc = .view x h got := by
  obtain ⟨buf, owner, own, sl, js, i, n⟩ := inv_reach r ha
  by_contra hn
  obtain ⟨h1, h2⟩ := not_or.1 hn
  apply hc
  cases st with
  | fillByte j ts b c k y h hy =>
    have hk : k < (s.src j).length := (List.getElem?_eq_some_iff.1 hy).1
    obtain ⟨f1, f2, f3, f4⟩ := i.fill j ts b c k h
    exact other_content i (f3 k (by omega)).2 (fun e => h1 ⟨j, ts, b, c, k, h, e.symm⟩)
  | viewWrite x' h got p y hp hcap hw =>
    have v1 := (i.view x' h got hp).1
    have ho : owner (h.base + p) = x' := by
      rw [v1] at hcap ⊢; exact ((i.hdr x').2 p hcap).2
    exact other_content i ho (fun e => h2 ⟨h, got, e ▸ hp⟩)
  | _ => rfl

/-! ## A run -/

theorem Reach.here (_ : Reach size s) : Later size s s := .refl

/-- `Write([7])`, `Next`, `Write([8])`, `Next` with a decoupler of size 1: the second byte is copied over the first. The first
view overwrites its byte with 5 after it has read it. -/
theorem run : ∃ s1 s2 : St Nat, Reach 1 s1 ∧ Later 1 s1 s2 ∧ s1.rpc = .clear 0 ∧ s1.log = [[7]] ∧ s2.log = [[7], [8]] ∧
    content s1.mem (s1.hdr 0) = [5] ∧ content s2.mem (s1.hdr 0) = [8] ∧ s2.attempts = 2 ∧ s2.arg 0 = [7] ∧ s2.src 0 = [1, 1] := by
  have r0 : Reach 1 (init (fun _ => 0) (fun j => [j + 7])) := .init _ _
  have r1 := r0.step (.call _ 0 rfl (by simp [init]))
  have r2 := r1.step (.add _ 0 (by simp [St.at, upd]) (by decide))
  have r3 := r2.step (.loadEmpty _ 0 0 rfl rfl)
  have r4 := r3.step (.casOk _ 0 0 (by simp [St.at, upd]) rfl)
  have r5 := r4.step (.growNew _ 0 0 1 (by simp [St.at, upd]) (by simp [St.at, init]) (by simp [St.at, init]))
  have r6 := r5.step (.fillByte _ 0 0 0 1 0 7 (by simp [St.at, upd, init]) (by simp [St.at, init]))
  have r7 := r6.step (.fillEnd _ 0 0 0 1 1 (by simp [St.at, upd]) (by simp [St.at, init]))
  have r8 := r7.step (.store _ 0 0 (by simp [St.at, upd]))
  have r9 := r8.step (.incr _ 0 (by simp [St.at, upd]))
  have r10 := r9.step (.poke _ 0 [1, 1] (by simp [St.at, upd, WPc.outside]))
  have r11 := r10.step (.next _ rfl (by simp [St.at, init]) (by decide))
  have r12 := r11.step (.spinEnd _ 0 rfl (by simp [St.at, upd, slot, emptyL]) (by simp [St.at, upd, slot, busyL]))
  have r13 := r12.step (.look _ 0 rfl)
  have r14 := r13.step (.viewRead _ 0 _ [] rfl (by simp [St.at, upd, slot]))
  have r15 := r14.step (.viewWrite _ 0 _ _ 0 5 rfl (by simp [St.at, upd, slot]) (.inl (by simp)))
  have r16 := r15.step (.viewEnd _ 0 _ _ rfl (by simp [St.at, upd, slot]))
  have l0 := r16.here
  have l1 := l0.tail (.clear _ 0 rfl)
  have l2 := l1.tail (.decr _ rfl)
  have l3 := l2.tail (.call _ 1 rfl (by simp [St.at, upd, init]))
  have l4 := l3.tail (.add _ 1 rfl (by decide))
  have l5 := l4.tail (.loadEmpty _ 1 1 rfl rfl)
  have l6 := l5.tail (.casOk _ 1 1 rfl rfl)
  have l7 := l6.tail (.growHere _ 1 1 rfl (by simp [St.at, upd, init, slot]))
  have l8 := l7.tail (.fillByte _ 1 1 0 1 0 8 rfl rfl)
  have l9 := l8.tail (.fillEnd _ 1 1 0 1 1 rfl rfl)
  have l10 := l9.tail (.store _ 1 1 rfl)
  have l11 := l10.tail (.incr _ 1 rfl)
  have l12 := l11.tail (.next _ rfl (by decide) (by decide))
  have l13 := l12.tail (.spinEnd _ 0 rfl (by decide) (by decide))
  have l14 := l13.tail (.look _ 0 rfl)
  have l15 := l14.tail (.viewRead _ 0 _ [] rfl (by decide))
  have l16 := l15.tail (.viewEnd _ 0 _ _ rfl rfl)
  exact ⟨_, _, r16, l16, rfl, rfl, rfl, rfl, rfl, rfl, rfl, rfl⟩

theorem Reach.later {s s' : St α} (r : Reach size s) (l : Later size s s') : Reach size s' := by
  induction l with
  | refl => exact r
  | tail _ st ih => exact ih.step st

/-- **C104** refuted: the next `Write` into the slot changes the slice that was shown. -/
theorem C104_refuted : ¬ C104_full := fun h => by
  obtain ⟨s1, s2, r, l, hp, -, -, h1, h2, -⟩ := run
  have := (h 1 s1 (by decide) (by decide) r).2.2 0 s2 hp l
  rw [h1, h2] at this
  cases this

/-- Non-vacuity: two payloads shown through the same memory; the caller has changed its slice meanwhile. -/
example : ∃ s : St Nat, Reach 1 s ∧ s.attempts < W - 2 ∧ s.log = [[7], [8]] ∧ s.arg 0 = [7] ∧ s.src 0 = [1, 1] := by
  obtain ⟨s1, s2, r, l, -, -, h1, -, -, h2, h3, h4⟩ := run
  exact ⟨s2, r.later l, by rw [h2]; decide, h1, h3, h4⟩

/-- Before and after a call of `Write`, accepted or not, its caller may do with its slice what it wants. -/
example {s : St α} {j : Nat} (l : List α) (h : s.wpc j = .new ∨ s.wpc j = .accepted ∨ s.wpc j = .dropped) :
    Step size s { s with src := upd s.src j l } := .poke s j l (by rcases h with h | h | h <;> rw [h] <;> rfl)

end Verif.DecMem
