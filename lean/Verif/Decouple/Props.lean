import Verif.Decouple.Wrap
/-!
# Decoupler: properties C57, C58, C59, C82
-/
namespace Verif.Decouple

variable {α : Type} {size : Nat} {payload : Nat → List α} {s : St α}

/-! ## C57 -/

/-- What is asked of every state. `js`: the calls whose payload was shown, in order; `sl`: where the payload of a
call that was accepted but not yet shown is. -/
structure Safe (size : Nat) (payload : Nat → List α) (s : St α) : Prop where
  delivery : ∃ (js : List Nat) (sl : Nat → Nat),
    js.Nodup ∧ s.log = js.map payload ∧
    (∀ j ∈ js, (s.wpc j = .incr ∨ s.wpc j = .accepted) ∧ payload j ≠ []) ∧
    (∀ j, s.wpc j = .accepted → j ∉ js → sl j < size ∧ s.buf (sl j) = payload j ∧
      s.lock (sl j) ≠ emptyL ∧ s.lock (sl j) ≠ busyL) ∧
    (∀ j j', s.wpc j = .accepted → s.wpc j' = .accepted → j ∉ js → j' ∉ js → sl j = sl j' → j = j')
  writers : ∀ j j' ts ts', (s.wpc j = .copy ts ∨ s.wpc j = .store ts) → (s.wpc j' = .copy ts' ∨ s.wpc j' = .store ts') →
    slot size ts = slot size ts' → j = j'
  reader : ∀ j i ts, (s.wpc j = .copy ts ∨ s.wpc j = .store ts) → (s.rpc = .view i ∨ s.rpc = .clear i) → slot size ts ≠ i
  counter : s.len ≤ size + 1 ∧ (s.rpc = .decr → 1 ≤ s.len)
  sound : s.crashed = false

/-- C57 in full: in every reachable state. -/
def C57_full : Prop := ∀ (size : Nat) (payload : Nat → List Nat) (s : St Nat), size ≠ 0 → size < W - 2 →
  Reach size payload s → Safe size payload s

/-- C57, as long as the ticket counter has been taken fewer than 2^64 - 2 times. Missing: a longer run, where it is
false (`C57_refuted`). -/
theorem C57_safe_partial (hs : size ≠ 0) (hz : size < W - 2) (r : Reach size payload s) (ha : s.attempts < W - 2) :
    Safe size payload s := by
  obtain ⟨own, sl, js, n⟩ := inv_reach r ha
  obtain ⟨inc, fl, c⟩ := cnt_reach hs hz r ha
  have done_iff : ∀ j, (s.wpc j).done = true ↔ s.wpc j = .incr ∨ s.wpc j = .accepted := fun j => by
    cases s.wpc j <;> simp [WPc.done]
  have holds_of : ∀ j ts, (s.wpc j = .copy ts ∨ s.wpc j = .store ts) → (s.wpc j).holds = some ts := fun j ts h => by
    rcases h with h | h <;> rw [h] <;> rfl
  have lost : ∀ j, s.wpc j = .accepted → j ∉ js → full (s.lock (sl j)) = true ∧ own (sl j) = j := fun j h h' => by
    rcases n.notLost j ((done_iff j).2 (.inr h)) with g | g
    · exact absurd g h'
    · exact g
  refine ⟨⟨js, sl, n.jsN, n.jsLog.symm, fun j hj => ?_, fun j h h' => ?_, fun j j' h1 h2 h3 h4 e => ?_⟩, ?_, ?_, ⟨c.le, fun h => c.pos (by rw [h]; rfl)⟩, c.ok hs⟩
  · have := n.jsDone j hj
    refine ⟨(done_iff j).1 this, n.nz j (fun h => ?_) (fun h => ?_)⟩ <;> rw [h] at this <;> cases this
  · obtain ⟨g1, g2⟩ := lost j h h'
    refine ⟨c.flS _ ((c.flM _).2 g1), ?_, (full_iff _).1 g1⟩
    have := (n.fullS _ g1).2.1
    rwa [g2] at this
  · rw [← (lost j h1 h3).2, ← (lost j' h2 h4).2, e]
  · intro j j' ts ts' h h' e
    rw [← (n.hold j ts (holds_of j ts h)).2, ← (n.hold j' ts' (holds_of j' ts' h')).2, e]
  · rintro j i ts h h' rfl
    have g := n.rdr (slot size ts) (by rcases h' with h' | h' <;> rw [h'] <;> rfl)
    rw [full_iff] at g
    exact g.2 (n.hold j ts (holds_of j ts h)).1

/-- After 2^64 - 2 writes and reads, the next payload is accepted into a slot marked empty: it is lost. -/
theorem C57_refuted : ¬ C57_full := by
  intro hc
  obtain ⟨s, r, h1, h2, h3, h4, h5, h6⟩ := rounds (payload := fun j => [j]) (by simp) (W - 2) (Nat.le_refl _)
  generalize hn : W - 2 = n at *
  have ht : (s.wr + 1) % W = n := by rw [h1]; exact att_step (by unfold W at *; omega)
  have r1 := write_once (by decide) r (j := n) (by simp) (h5 n (Nat.le_refl _)) ht (i := 0) (by unfold slot; omega) (h3 0)
  obtain ⟨js, sl, g1, g2, g3, g4, g5⟩ := (hc 1 _ _ (by decide) (by decide) r1).delivery
  simp only [h6] at g2
  have ej : js = List.range n := (List.map_injective_iff.2 (fun a b h => by simpa using h) g2).symm
  obtain ⟨_, _, g6, _⟩ := g4 n (by simp) (by simp [ej])
  simp only at g6
  split at g6
  · exact g6 hn.symm
  · exact g6 (h3 _)

/-- Two writers in the two slots of a decoupler of size 2; the payload of the first has been shown. -/
example : ∃ s : St Nat, Reach 2 (fun j => [j, j]) s ∧ s.attempts < W - 2 ∧ s.log = [[0, 0]] ∧ s.wpc 1 = .accepted ∧ s.buf 1 = [1, 1] := by
  have r1 := write_once (payload := fun j => [j, j]) (size := 2) (j := 0) (ts := 0) (i := 0) (by decide) .init (by simp) rfl rfl rfl rfl
  have r2 := write_once (j := 1) (ts := 1) (i := 1) (by decide) r1 (by simp) rfl rfl rfl rfl
  have r3 := next_once (i := 0) (by decide) r2 rfl (by decide) rfl (by decide)
  exact ⟨_, r3, by decide, rfl, rfl, rfl⟩

/-! ## C58 -/

/-- C58 in full: the queue of the payloads accepted and not yet shown. -/
def C58_full : Prop := ∀ (size : Nat) (h : List (Ev Nat)) (d : Dec Nat), size ≠ 0 → Run size h d → h.length < W - 2 →
  ∃ q, acceptedOf h = shownOf h ++ q ∧ ((∃ d', next size d = (.none, d')) ↔ q = []) ∧
    (∀ b t, q = b :: t → ∃ d', next size d = (.shown b, d')) ∧
    (∀ b, b ≠ [] → q.length < size → ∃ d', Write size b d d' (.accepted b.length))

/-- C58, for histories in which no write was dropped for lack of room. Missing: the others, for which it is false
(`C58_refuted_order`, `C58_refuted_hang`). -/
theorem C58_fifo_partial (hs : size ≠ 0) {h : List (Ev α)} {d : Dec α} (r : Run size h d) (hn : NoDrop h) (hh : h.length < W - 2) :
    ∃ q, acceptedOf h = shownOf h ++ q ∧ q.length ≤ size ∧ ((∃ d', next size d = (.none, d')) ↔ q = []) ∧
      (∀ b t, q = b :: t → ∃ d', next size d = (.shown b, d')) ∧
      (∀ b, b ≠ [] → q.length < size →
        (∃ d', Write size b d d' (.accepted b.length)) ∧ ∀ d' r', Write size b d d' r' → r' = .accepted b.length) := by
  obtain ⟨k, h1, h2, f, h3⟩ := finv_run hs r hn hh
  have hq : ((acceptedOf h).drop k).length = (acceptedOf h).length - k := List.length_drop
  have shows : k < (acceptedOf h).length → ∃ b d', next size d = (.shown b, d') := fun hk => by
    obtain ⟨d', g, _⟩ := f.next_shown hs hk (by omega)
    exact ⟨_, d', g⟩
  refine ⟨(acceptedOf h).drop k, by rw [h3, List.take_append_drop], by have := f.le; omega, ⟨fun ⟨d', g⟩ => ?_, fun g => ?_⟩, fun b t e => ?_, fun b hb hl => ?_⟩
  · by_contra hne
    have := List.length_pos_iff.2 hne
    obtain ⟨_, d2, g2⟩ := shows (by omega)
    rw [g2] at g; cases g
  · rw [g] at hq; simp at hq
    exact ⟨_, f.next_empty (by omega)⟩
  · have hk : k < (acceptedOf h).length := by rw [e] at hq; simp at hq; omega
    obtain ⟨d', g, _⟩ := f.next_shown hs hk (by omega)
    rw [List.drop_eq_getElem_cons hk] at e
    obtain ⟨rfl, _⟩ := List.cons.inj e
    exact ⟨d', g⟩
  · have hb' : b.length ≠ 0 := fun e => hb (List.length_eq_zero_iff.1 e)
    obtain ⟨d', g, _⟩ := f.write_room hs (by omega) (by omega) hb'
    exact ⟨⟨d', g⟩, fun d2 r2 g2 => (write_det g2 g).2⟩

theorem accept_now {b : List α} {d : Dec α} {ts i : Nat} (hs : size ≠ 0) (hb : b.length ≠ 0) (ht : (d.wr + 1) % W = ts)
    (hi : slot size ts = i) (he : d.lock i = emptyL) :
    Write size b d ⟨d.rd, ts, (d.len + 1) % W, fun x => if x = i then ts else d.lock x, fun x => if x = i then b else d.buf x⟩
      (.accepted b.length) := by
  subst ht hi
  exact .loop _ _ _ hb (.accept d hs he)

theorem drop_now {b : List α} {d : Dec α} {ts i : Nat} (hs : size ≠ 0) (hb : b.length ≠ 0) (ht : (d.wr + 1) % W = ts)
    (hi : slot size ts = i) (he : full (d.lock i) = true) (hl : d.len = size) :
    Write size b d ⟨d.rd, ts, d.len, d.lock, d.buf⟩ .dropped := by
  subst ht hi
  exact .loop _ _ _ hb (.drop d hs ((full_iff _).1 he).1 ((full_iff _).1 he).2 hl)

theorem show_now {d : Dec α} {i : Nat} (hs : size ≠ 0) (hl : d.len ≠ 0) (hi : slot size d.rd = i) (hf : full (d.lock i) = true) :
    next size d = (.shown (d.buf i),
      ⟨(d.rd + 1) % W, d.wr, (d.len + (W - 1)) % W, fun x => if x = i then emptyL else d.lock x, d.buf⟩) := by
  subst hi
  rw [full_iff] at hf
  unfold next
  rw [if_neg hl, if_neg hs, if_neg (by rintro (e | e); exacts [hf.1 e, hf.2 e])]

/-- Size 2: write, write, write (dropped), read, read, write; one payload is held, and `Next` waits for ever. -/
theorem C58_refuted_hang : ∃ (h : List (Ev Nat)) (d : Dec Nat), Run 2 h d ∧ h.length = 6 ∧
    acceptedOf h = [[1], [2], [4]] ∧ shownOf h = [[1], [2]] ∧ next 2 d = (.hang, d) := by
  have r1 := Run.write (size := 2) (b := [1]) .init (accept_now (ts := 0) (i := 0) (by decide) (by decide) rfl rfl rfl) (by simp)
  have r2 := r1.write (b := [2]) (accept_now (ts := 1) (i := 1) (by decide) (by decide) rfl rfl rfl) (by simp)
  have r3 := r2.write (b := [3]) (drop_now (ts := 2) (i := 0) (by decide) (by decide) rfl rfl (by decide) (by decide)) (by simp)
  have r4 := r3.shown (show_now (i := 0) (by decide) (by decide) rfl (by decide))
  have r5 := r4.shown (show_now (i := 1) (by decide) (by decide) rfl (by decide))
  have r6 := r5.write (b := [4]) (accept_now (ts := 3) (i := 1) (by decide) (by decide) rfl rfl rfl) (by simp)
  exact ⟨_, _, r6, rfl, rfl, rfl, by unfold next; rw [if_neg (by decide), if_neg (by decide), if_pos (.inl rfl)]⟩

/-- Size 3: three writes, a dropped one, three reads, three writes; `Next` shows the last of these first. -/
theorem C58_refuted_order : ∃ (h : List (Ev Nat)) (d d' : Dec Nat), Run 3 h d ∧ h.length = 10 ∧
    acceptedOf h = [[1], [2], [3], [5], [6], [7]] ∧ shownOf h = [[1], [2], [3]] ∧ next 3 d = (.shown [7], d') := by
  have r1 := Run.write (size := 3) (b := [1]) .init (accept_now (ts := 0) (i := 0) (by decide) (by decide) rfl rfl rfl) (by simp)
  have r2 := r1.write (b := [2]) (accept_now (ts := 1) (i := 1) (by decide) (by decide) rfl rfl rfl) (by simp)
  have r3 := r2.write (b := [3]) (accept_now (ts := 2) (i := 2) (by decide) (by decide) rfl rfl rfl) (by simp)
  have r4 := r3.write (b := [4]) (drop_now (ts := 3) (i := 0) (by decide) (by decide) rfl rfl (by decide) (by decide)) (by simp)
  have r5 := r4.shown (show_now (i := 0) (by decide) (by decide) rfl (by decide))
  have r6 := r5.shown (show_now (i := 1) (by decide) (by decide) rfl (by decide))
  have r7 := r6.shown (show_now (i := 2) (by decide) (by decide) rfl (by decide))
  have r8 := r7.write (b := [5]) (accept_now (ts := 4) (i := 1) (by decide) (by decide) rfl rfl rfl) (by simp)
  have r9 := r8.write (b := [6]) (accept_now (ts := 5) (i := 2) (by decide) (by decide) rfl rfl rfl) (by simp)
  have r10 := r9.write (b := [7]) (accept_now (ts := 6) (i := 0) (by decide) (by decide) rfl rfl rfl) (by simp)
  exact ⟨_, _, _, r10, rfl, rfl, rfl, show_now (i := 0) (by decide) (by decide) rfl (by decide)⟩

theorem C58_refuted : ¬ C58_full := by
  intro hc
  obtain ⟨h, d, r, hl, h1, h2, h3⟩ := C58_refuted_hang
  obtain ⟨q, g1, _, g3, _⟩ := hc 2 h d (by decide) r (by rw [hl]; decide)
  rw [h1, h2] at g1
  obtain ⟨d', g⟩ := g3 [4] [] (by simpa using g1.symm)
  rw [h3] at g; cases g

/-- A history that meets the hypotheses of `C58_fifo_partial`. -/
example : ∃ (h : List (Ev Nat)) (d : Dec Nat), Run 2 h d ∧ NoDrop h ∧ h.length < W - 2 ∧ shownOf h = [[1]] ∧ acceptedOf h = [[1], [2], [3]] := by
  have r1 := Run.write (size := 2) (b := [1]) .init (accept_now (ts := 0) (i := 0) (by decide) (by decide) rfl rfl rfl) (by simp)
  have r2 := r1.write (b := [2]) (accept_now (ts := 1) (i := 1) (by decide) (by decide) rfl rfl rfl) (by simp)
  have r3 := r2.shown (show_now (i := 0) (by decide) (by decide) rfl (by decide))
  have r4 := r3.write (b := [3]) (accept_now (ts := 2) (i := 0) (by decide) (by decide) rfl rfl rfl) (by simp)
  exact ⟨_, _, r4, by intro b hb; simp at hb, by decide, rfl, rfl⟩

/-! ## C59 -/

/-- C59 in full, with `k` payloads held. -/
def C59_full : Prop := ∀ (size : Nat) (h : List (Ev Nat)) (d : Dec Nat), size ≠ 0 → Run size h d → (h.length + 2) * size < W - 2 →
  ∃ k, (acceptedOf h).length = (shownOf h).length + k ∧ (∀ b, ∃ d' r, Write size b d d' r ∧ (r = .dropped ↔ b = [] ∨ k = size)) ∧
    (k ≠ 0 → ∃ b d', next size d = (.shown b, d'))

/-- C59, but for `Next` returning afterwards, which is false (`C59_refuted`): a `Write` ends in only one way; it calls the
drop function, and returns what that returns, exactly when the payload is empty or `size` payloads are held; then it
leaves what is held as it was. Otherwise the payload is added to an empty slot. -/
theorem C59_drop_partial (hs : size ≠ 0) {h : List (Ev α)} {d : Dec α} (r : Run size h d) (hh : (h.length + 2) * size < W - 2) :
    ∃ k, (acceptedOf h).length = (shownOf h).length + k ∧ k ≤ size ∧ ∀ b, ∃ d' r,
      Write size b d d' r ∧ (∀ d2 r2, Write size b d d2 r2 → d2 = d' ∧ r2 = r) ∧
      (r = .dropped ↔ b = [] ∨ k = size) ∧
      (∀ (ρ : Type) (drop : List α → ρ) (ok : Nat → ρ), r.value drop ok b = some (if b = [] ∨ k = size then drop b else ok b.length)) ∧
      (r = .dropped → d'.rd = d.rd ∧ d'.len = d.len ∧ d'.lock = d.lock ∧ d'.buf = d.buf) ∧
      (r ≠ .dropped → d'.rd = d.rd ∧ ∃ i, d.lock i = emptyL ∧ d'.lock i ≠ emptyL ∧ d'.lock i ≠ busyL ∧ d'.buf i = b ∧
        ∀ x, x ≠ i → d'.lock x = d.lock x ∧ d'.buf x = d.buf x) := by
  have e2 : (h.length + 2) * size = (h.length + 1) * size + size := Nat.succ_mul _ _
  have e3 : (h.length + 1) * size = h.length * size + size := Nat.succ_mul _ _
  have hpos := Nat.pos_of_ne_zero hs
  obtain ⟨n, fl, si, hn, hc⟩ := sinv_run hs r (by omega)
  have hle := nodup_lt si.flN si.flS
  refine ⟨fl.length, hc, hle, fun b => ?_⟩
  by_cases hb : b.length = 0
  · have hb' := List.length_eq_zero_iff.1 hb
    exact ⟨d, .dropped, .empty d hb, fun d2 r2 g => write_det g (.empty d hb), by simp [hb'], by simp [hb', WRes.value],
      fun _ => ⟨rfl, rfl, rfl, rfl⟩, fun h => absurd rfl h⟩
  · have hb' : b ≠ [] := fun e => hb (by simp [e])
    rcases Nat.lt_or_ge fl.length size with hfl | hfl
    · obtain ⟨d', n', i, g1, g2, g3, g4, g5, g6, ts, g7⟩ := write_room si hs hfl (by omega) hb
      have hf := (full_iff _).1 ((g3.flM i).1 (by simp))
      refine ⟨d', .accepted b.length, g1, fun d2 r2 g => write_det g g1, by simp [hb']; omega,
        fun ρ drop ok => by rw [if_neg (by simp [hb']; omega)]; rfl, by simp, fun _ => ⟨g5, i, g4, hf.1, hf.2, by simp [g6], fun x hx => ?_⟩⟩
      simp [g6, g7, hx]
    · have hfl' : fl.length = size := by omega
      have g := write_full (b := b) si hs hfl' (by omega) hb
      exact ⟨_, .dropped, g, fun d2 r2 g' => write_det g' g, by simp [hfl'], fun ρ drop ok => by rw [if_pos (.inr hfl')]; rfl,
        fun _ => ⟨rfl, rfl, rfl, rfl⟩, fun h => absurd rfl h⟩

theorem C59_refuted : ¬ C59_full := by
  intro hc
  obtain ⟨h, d, r, hl, h1, h2, h3⟩ := C58_refuted_hang
  obtain ⟨k, g1, _, g3⟩ := hc 2 h d (by decide) r (by rw [hl]; decide)
  rw [h1, h2] at g1
  obtain ⟨b, d', g⟩ := g3 (by simp at g1; omega)
  rw [h3] at g; cases g

/-- A decoupler of size 0: every write of a payload divides by zero. -/
theorem C59_size_zero (d : Dec α) (b : List α) (hb : b ≠ []) : ∀ d' r, Write 0 b d d' r → r = .panic := by
  intro d' r g
  have hb' : b.length ≠ 0 := fun e => hb (List.length_eq_zero_iff.1 e)
  exact (write_det g (.loop d _ _ hb' (.div d rfl))).2

/-- A full decoupler of size 2. -/
example : ∃ (h : List (Ev Nat)) (d : Dec Nat), Run 2 h d ∧ (h.length + 2) * 2 < W - 2 ∧ (acceptedOf h).length = (shownOf h).length + 2 := by
  have r1 := Run.write (size := 2) (b := [1]) .init (accept_now (ts := 0) (i := 0) (by decide) (by decide) rfl rfl rfl) (by simp)
  have r2 := r1.write (b := [2]) (accept_now (ts := 1) (i := 1) (by decide) (by decide) rfl rfl rfl) (by simp)
  exact ⟨_, _, r2, by decide, rfl⟩

/-! ## C82 -/

/-- C82 in full: when every call of `Write` has returned, a `Next` that has started waiting finds its slot full. -/
def C82_full : Prop := ∀ (size : Nat) (payload : Nat → List Nat) (s : St Nat) (i : Nat), size ≠ 0 → size < W - 2 →
  Reach size payload s → s.attempts < W - 2 → (∀ j, s.wpc j = .new ∨ s.wpc j = .accepted ∨ s.wpc j = .dropped) →
  s.rpc = .spin i → s.lock i ≠ emptyL ∧ s.lock i ≠ busyL

/-- C82 for a decoupler of size 1. Missing: other sizes, for which it is false (`C82_refuted`). -/
theorem C82_next_returns_partial (hs : size = 1) (r : Reach size payload s) (ha : s.attempts < W - 2)
    (hw : ∀ j, s.wpc j = .new ∨ s.wpc j = .accepted ∨ s.wpc j = .dropped) {i : Nat} (hr : s.rpc = .spin i) :
    s.lock i ≠ emptyL ∧ s.lock i ≠ busyL := by
  subst hs
  obtain ⟨inc, fl, c⟩ := cnt_reach (by decide) (by decide) r ha
  have hp := c.pos (by rw [hr]; rfl)
  have hl := c.len
  rw [hr, if_neg (by simp)] at hl
  have hi : i = 0 := by have := spin_slot r hr; unfold slot at this; omega
  cases fl with
  | nil => simp at hl; omega
  | cons x fl =>
    have h1 := c.flS x (by simp)
    have h2 := (c.flM x).1 (by simp)
    rw [hi, show (0 : Nat) = x by omega]
    exact (full_iff _).1 h2

/-- Size 2, no write dropped: a writer whose compare-and-swap fails gives up its ticket; later the reader waits at the slot of
that ticket for ever, while a payload is held in the other. -/
theorem C82_refuted : ¬ C82_full := by
  intro hc
  have a1 := Reach.step (size := 2) (payload := fun j => [j]) .init (.call _ 0 rfl (by simp))
  have a2 := a1.step (.add _ 0 rfl (by decide))
  have a3 := a2.step (.loadEmpty _ 0 0 rfl rfl)
  have b := write_once (j := 1) (ts := 1) (i := 1) (by decide) a3 (by simp) rfl rfl rfl rfl
  have d1 := b.step (.call _ 2 rfl (by simp))
  have d2 := d1.step (.add _ 2 rfl (by decide))
  have d3 := d2.step (.loadEmpty _ 2 2 rfl rfl)
  have a4 := d3.step (.casOk _ 0 0 rfl rfl)
  have a5 := a4.step (.copy _ 0 0 rfl)
  have a6 := a5.step (.store _ 0 0 rfl)
  have a7 := a6.step (.incr _ 0 rfl)
  have d4 := a7.step (.casFail _ 2 2 rfl (by decide))
  have n1 := next_once (i := 0) (by decide) d4 rfl (by decide) rfl (by decide)
  have n2 := next_once (i := 1) (by decide) n1 rfl (by decide) rfl (by decide)
  have d5 := n2.step (.add _ 2 rfl (by decide))
  have d6 := d5.step (.loadEmpty _ 2 3 rfl rfl)
  have d7 := d6.step (.casOk _ 2 3 rfl rfl)
  have d8 := d7.step (.copy _ 2 3 rfl)
  have d9 := d8.step (.store _ 2 3 rfl)
  have d10 := d9.step (.incr _ 2 rfl)
  have n3 := d10.step (.next _ rfl (by decide) (by decide))
  refine (hc 2 _ _ 0 (by decide) (by decide) n3 (by decide) (fun j => ?_) rfl).1 rfl
  rcases j with _ | _ | _ | j
  · exact .inr (.inl rfl)
  · exact .inr (.inl rfl)
  · exact .inr (.inl rfl)
  · left; simp [St.at, init]

/-- A state that meets the hypotheses of `C82_next_returns_partial`. -/
example : ∃ s : St Nat, Reach 1 (fun j => [j]) s ∧ s.attempts < W - 2 ∧ s.rpc = .spin 0 ∧
    ∀ j, s.wpc j = .new ∨ s.wpc j = .accepted ∨ s.wpc j = .dropped := by
  have r1 := write_once (payload := fun j => [j]) (size := 1) (j := 0) (ts := 0) (i := 0) (by decide) .init (by simp) rfl rfl rfl rfl
  have r2 := r1.step (.next _ rfl (by decide) (by decide))
  refine ⟨_, r2, by decide, rfl, fun j => ?_⟩
  by_cases h : j = 0
  · subst h; exact .inr (.inl rfl)
  · left; simp [h, init]

end Verif.Decouple
