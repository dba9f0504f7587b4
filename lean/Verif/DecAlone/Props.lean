import Verif.DecAlone.Lemmas
/-!
# C124: a call of `Write` waits for nobody
-/
namespace Verif.DecAlone
open Verif.Decouple

variable {α : Type} {size : Nat} {payload : Nat → List α} {s : St α} {j : Nat}

/-- The full statement: wherever the others stand, a call of `Write` that goes on alone returns. -/
def C124_full : Prop := ∀ (size : Nat) (payload : Nat → List Nat) (s : St Nat) (j : Nat), size ≠ 0 →
  Reach size payload s → s.attempts + size < W - 2 → ∃ n, Returns size payload j n s

/-- What a call does on its own is determined: it returns on the way that leads there, or on none. -/
theorem C124_one_way {t t' : St α} (h : Own size payload j s t) (h' : Own size payload j s t') : t = t' := by
  rw [own_eq h, own_eq h']

/-- **C124, exactly**: a call at the top of its loop returns, on its own, if and only if some slot is empty, or some slot is full and
the fill counter says that all are; it then takes at most `size` tickets. Otherwise it goes round for ever. -/
theorem C124_iff (hs : size ≠ 0) (r : Reach size payload s) (ha : s.attempts + size < W - 2) (hj : s.wpc j = .add) :
    (Open size s → Returns size payload j size s) ∧
    (¬ Open size s → ∀ t, Alone size payload j s t → ¬ Over t j ∧ ∃ u, Own size payload j t u) := by
  obtain ⟨own, sl, js, n⟩ := inv_reach r (by omega)
  exact ⟨from_add_open hs hj n.att (by omega), fun ho t h => shut hs h ho (.inl hj)⟩

/-- **C124** if no other call of `Write` is under way, and `Next` does not stand before line 97: wherever it is, the call returns,
with at most `size` more tickets. Missing: the other states, for which it is false (`C124_refuted`, `C124_reader`). -/
theorem C124_partial (hs : size ≠ 0) (r : Reach size payload s) (ha : s.attempts + size < W - 2) (ho : OthersOut s j)
    (hr : s.rpc ≠ .decr) : Returns size payload j size s := by
  obtain ⟨own, sl, js, n⟩ := inv_reach r (by omega)
  obtain ⟨inc, fl, c⟩ := cnt_reach hs (by omega) r (by omega)
  have hlt : ∀ ts, slot size ts < size := fun ts => Nat.mod_lt _ (Nat.pos_of_ne_zero hs)
  -- the slots, as long as the call has none
  have hopen : (s.wpc j).holds = none → s.wpc j ≠ .incr → Open size s := fun h1 h2 => by
    by_contra hc
    have hne : ∀ i, i < size → s.lock i ≠ emptyL := fun i hi e => hc (.inl ⟨i, hi, e⟩)
    have hnb : ∀ i, i < size → s.lock i ≠ busyL := fun i hi e => by
      obtain ⟨k, ts, g, _⟩ := busy_held r (by omega) i e
      by_cases hk : k = j
      · rw [hk, h1] at g; cases g
      · rcases ho k hk with q | q | q <;> rw [q] at g <;> cases g
    have hinc : inc = [] := by
      rw [List.eq_nil_iff_forall_not_mem]
      intro k hk
      have g := (c.incM k).1 hk
      by_cases hk : k = j
      · rw [hk] at g; exact h2 g
      · rcases ho k hk with q | q | q <;> rw [q] at g <;> cases g
    have h3 := c.len
    rw [hinc, if_neg hr] at h3
    have h4 : List.range size ⊆ fl := fun i hi => (c.flM i).2 ((full_iff _).2 ⟨hne i (List.mem_range.1 hi), hnb i (List.mem_range.1 hi)⟩)
    have h5 : size ≤ fl.length := by simpa using (List.subperm_of_subset List.nodup_range h4).length_le
    have h6 := nodup_lt c.flN c.flS
    have hp := Nat.pos_of_ne_zero hs
    exact hc (.inr ⟨by simp at h3; omega, 0, hp, hne 0 hp, hnb 0 hp⟩)
  have weaken : ∀ {m : Nat} {t : St α}, m ≤ size → Returns size payload j m t → Returns size payload j size t :=
    fun h ⟨u, h1, h2, h3⟩ => ⟨u, h1, h2, by omega⟩
  -- one more round
  have again : ∀ t : St α, Own size payload j s t → t.wpc j = .add → t.wr = s.wr → t.attempts = s.attempts → Open size t →
      Returns size payload j size s := fun t h1 h2 h3 h4 h5 =>
    .head (m := size) h1 (from_add_open hs h2 (by rw [h3, h4]; exact n.att) (by omega) h5) (by omega)
  cases hp : s.wpc j with
  | new =>
    have hO := hopen (by rw [hp]; rfl) (by rw [hp]; simp)
    by_cases hl : (payload j).length = 0
    · exact weaken (Nat.zero_le _) ⟨_, .head (DecAlone.own hp (by simp) (.callEmpty _ j hp hl) (at_same _ _ _)) (.refl _), .inr (at_same _ _ _), by simp [St.at]⟩
    · exact again _ (DecAlone.own hp (by simp) (.call _ j hp hl) (at_same _ _ _)) (at_same _ _ _) rfl rfl hO
  | add => exact from_add_open hs hp n.att (by omega) (hopen (by rw [hp]; rfl) (by rw [hp]; simp))
  | load ts =>
    have hO := hopen (by rw [hp]; rfl) (by rw [hp]; simp)
    by_cases he : s.lock (slot size ts) = emptyL
    · exact weaken (Nat.zero_le _) (from_load_ok hp he)
    by_cases hb : s.lock (slot size ts) = busyL
    · exact again _ (DecAlone.own hp (by simp) (.loadBusy _ j ts hp hb) (at_same _ _ _)) (at_same _ _ _) rfl rfl hO
    have st := DecAlone.own (size := size) (payload := payload) hp (by simp) (.loadFull _ j ts hp he hb) (at_same _ _ _)
    by_cases hl : s.len = size
    · exact weaken (Nat.zero_le _) (.head (n := 0) st (from_chk_full (at_same _ _ _) hl) (by simp [St.at]))
    · refine .head (m := size) st (.head (m := size) (DecAlone.own (at_same _ _ _) (by simp) (.chkRetry _ j (at_same _ _ _) hl) (at_same _ _ _))
        (from_add_open hs (at_same _ _ _) n.att (by simp [St.at]; omega) hO) (by simp [St.at])) (by simp [St.at])
  | cas ts =>
    have hO := hopen (by rw [hp]; rfl) (by rw [hp]; simp)
    by_cases he : s.lock (slot size ts) = emptyL
    · exact weaken (Nat.zero_le _) (from_cas_ok hp he)
    · exact again _ (DecAlone.own hp (by simp) (.casFail _ j ts hp he) (at_same _ _ _)) (at_same _ _ _) rfl rfl hO
  | copy ts => exact weaken (Nat.zero_le _) (from_copy hp)
  | store ts => exact weaken (Nat.zero_le _) (from_store hp)
  | incr => exact weaken (Nat.zero_le _) (from_incr hp)
  | accepted => exact ⟨s, .refl _, .inl hp, by omega⟩
  | chk =>
    have hO := hopen (by rw [hp]; rfl) (by rw [hp]; simp)
    by_cases hl : s.len = size
    · exact weaken (Nat.zero_le _) (from_chk_full hp hl)
    · exact again _ (DecAlone.own hp (by simp) (.chkRetry _ j hp hl) (at_same _ _ _)) (at_same _ _ _) rfl rfl hO
  | dropped => exact ⟨s, .refl _, .inr hp, by omega⟩

/-- One slot. A call of `Write` has stored its payload and stands before line 64: the next one goes round for ever. -/
theorem C124_writer : ∃ s : St Nat, Reach 1 (fun j => [j]) s ∧ s.attempts = 1 ∧ s.rpc = .idle ∧ s.wpc 0 = .incr ∧ s.wpc 1 = .add ∧
    ∀ t, Alone 1 (fun j => [j]) 1 s t → ¬ Over t 1 ∧ ∃ u, Own 1 (fun j => [j]) 1 t u := by
  have r1 := Reach.init (size := 1) (payload := fun j => [j]) |>.step (.call _ 0 rfl (by simp))
  have r2 := r1.step (.add _ 0 rfl (by decide))
  have r3 := r2.step (.loadEmpty _ 0 0 rfl rfl)
  have r4 := r3.step (.casOk _ 0 0 rfl rfl)
  have r5 := r4.step (.copy _ 0 0 rfl)
  have r6 := r5.step (.store _ 0 0 rfl)
  have r7 := r6.step (.call _ 1 rfl (by simp))
  refine ⟨_, r7, rfl, rfl, rfl, rfl, (C124_iff (by decide) r7 (by decide) rfl).2 ?_⟩
  rintro (⟨i, hi, h⟩ | ⟨h, _⟩)
  · obtain rfl : i = 0 := by omega
    exact absurd h (by decide)
  · exact absurd h (by decide)

/-- **C124 is false.** -/
theorem C124_refuted : ¬ C124_full := by
  intro hf
  obtain ⟨s, r, h1, _, _, _, h2⟩ := C124_writer
  obtain ⟨_, t, h3, h4, _⟩ := hf 1 _ s 1 (by decide) r (by rw [h1]; decide)
  exact (h2 t h3).1 h4

/-- One slot, no other call of `Write` under way. `Next` has emptied the slot and stands before line 97; another payload has been put
there. The counter says 2, and the next call goes round for ever. -/
theorem C124_reader : ∃ s : St Nat, Reach 1 (fun j => [j]) s ∧ s.attempts = 2 ∧ s.rpc = .decr ∧ OthersOut s 2 ∧ s.wpc 2 = .add ∧
    s.len = 2 ∧ ∀ t, Alone 1 (fun j => [j]) 2 s t → ¬ Over t 2 ∧ ∃ u, Own 1 (fun j => [j]) 2 t u := by
  have r1 := write_once (payload := fun j => [j]) (size := 1) (j := 0) (ts := 0) (i := 0) (by decide) .init (by simp) rfl rfl rfl rfl
  have r2 := r1.step (.next _ rfl (by decide) (by decide))
  have r3 := r2.step (.spinEnd _ 0 rfl (by decide) (by decide))
  have r4 := r3.step (.view _ 0 rfl)
  have r5 := r4.step (.clear _ 0 rfl)
  have r6 := write_once (j := 1) (ts := 1) (i := 0) (by decide) r5 (by simp) rfl rfl rfl rfl
  have r7 := r6.step (.call _ 2 rfl (by simp))
  refine ⟨_, r7, rfl, rfl, fun k hk => ?_, rfl, rfl, (C124_iff (by decide) r7 (by decide) rfl).2 ?_⟩
  · simp only [St.at, if_neg hk, init]
    repeat' split
    all_goals simp
  rintro (⟨i, hi, h⟩ | ⟨h, _⟩)
  · obtain rfl : i = 0 := by omega
    exact absurd h (by decide)
  · exact absurd h (by decide)

/-- A call that stands before line 54 while the decoupler of size 2 is full. -/
example : ∃ s : St Nat, Reach 2 (fun j => [j]) s ∧ s.attempts + 2 < W - 2 ∧ OthersOut s 2 ∧ s.rpc ≠ .decr ∧ s.wpc 2 = .add ∧ s.len = 2 := by
  have r1 := write_once (payload := fun j => [j]) (size := 2) (j := 0) (ts := 0) (i := 0) (by decide) .init (by simp) rfl rfl rfl rfl
  have r2 := write_once (j := 1) (ts := 1) (i := 1) (by decide) r1 (by simp) rfl rfl rfl rfl
  have r3 := r2.step (.call _ 2 rfl (by simp))
  refine ⟨_, r3, by decide, fun k hk => ?_, by decide, rfl, rfl⟩
  simp only [St.at, if_neg hk, init]
  repeat' split
  all_goals simp

end Verif.DecAlone
