import Verif.Decouple.Conc
/-!
# The decoupler used by one caller at a time
-/
namespace Verif.Decouple

variable {α : Type} {size : Nat}

/-- The payloads accepted in a history, in order. -/
def acceptedOf (h : List (Ev α)) : List (List α) :=
  h.filterMap (fun | .write b (.accepted _) => some b | _ => none)

/-- The payloads shown in a history, in order. -/
def shownOf (h : List (Ev α)) : List (List α) :=
  h.filterMap (fun | .next (.shown b) => some b | _ => none)

theorem acceptedOf_append (h h' : List (Ev α)) : acceptedOf (h ++ h') = acceptedOf h ++ acceptedOf h' := by
  simp [acceptedOf]

theorem shownOf_append (h h' : List (Ev α)) : shownOf (h ++ h') = shownOf h ++ shownOf h' := by
  simp [shownOf]

theorem wloop_det {b : List α} {d d1 d2 : Dec α} {r1 r2 : WRes} (h1 : WLoop size b d d1 r1) (h2 : WLoop size b d d2 r2) :
    d1 = d2 ∧ r1 = r2 := by
  induction h1 with
  | div d h => cases h2 <;> first | exact ⟨rfl, rfl⟩ | contradiction
  | accept d h g => cases h2 <;> first | exact ⟨rfl, rfl⟩ | contradiction
  | drop d h g1 g2 g3 =>
    cases h2 with
    | again _ _ _ _ _ g4 => rcases g4 with g' | g' <;> contradiction
    | _ => first | exact ⟨rfl, rfl⟩ | contradiction
  | again d d' r h g1 g2 _ ih =>
    cases h2 with
    | again _ _ _ _ _ _ h' => exact ih h'
    | drop => rcases g2 with g' | g' <;> contradiction
    | _ => contradiction

theorem write_det {b : List α} {d d1 d2 : Dec α} {r1 r2 : WRes} (h1 : Write size b d d1 r1) (h2 : Write size b d d2 r2) :
    d1 = d2 ∧ r1 = r2 := by
  cases h1 with
  | empty h => cases h2 <;> first | exact ⟨rfl, rfl⟩ | contradiction
  | loop _ _ h h1 =>
    cases h2 with
    | empty _ => contradiction
    | loop _ _ _ h2 => exact wloop_det h1 h2

/-! ## Any sequential history -/

/-- `n`: tickets used; `fl`: the full slots. -/
structure SInv (size : Nat) (d : Dec α) (n : Nat) (fl : List Nat) : Prop where
  wr : d.wr = (n + (W - 1)) % W
  nobusy : ∀ i, d.lock i ≠ busyL
  flN : fl.Nodup
  flM : ∀ i, i ∈ fl ↔ full (d.lock i) = true
  flS : ∀ i, i ∈ fl → i < size
  len : d.len = fl.length

theorem SInv.tick {d : Dec α} {n : Nat} {fl : List Nat} (s : SInv size d n fl) (hn : n < W - 2) : (d.wr + 1) % W = n := by
  rw [s.wr]; exact att_step (by unfold W at *; omega)

/-- The loop finds the first empty slot from the next ticket on. -/
theorem wloop_accepts (b : List α) (hs : size ≠ 0) {fl : List Nat} (hfl : fl.length ≠ size) : ∀ (m : Nat) (d : Dec α) (n : Nat),
    SInv size d n fl → n + m < W - 2 → d.lock (slot size (n + m)) = emptyL →
    ∃ d' n', WLoop size b d d' (.accepted b.length) ∧ n < n' ∧ n' ≤ n + m + 1 ∧
      d'.wr = (n' + (W - 1)) % W ∧ d'.len = (d.len + 1) % W ∧ d'.rd = d.rd ∧
      d.lock (slot size (n' - 1)) = emptyL ∧
      d'.lock = (fun i => if i = slot size (n' - 1) then n' - 1 else d.lock i) ∧
      d'.buf = (fun i => if i = slot size (n' - 1) then b else d.buf i) := by
  intro m
  induction m with
  | zero =>
    intro d n s hn he
    have ht := s.tick (by omega)
    refine ⟨_, n + 1, .accept d hs (by rw [ht]; exact he), by omega, by omega, ?_, rfl, rfl, he, ?_, ?_⟩
    · simp only [ht]; unfold W at *; omega
    · rw [ht]; rfl
    · rw [ht]; rfl
  | succ m ih =>
    intro d n s hn he
    have ht := s.tick (by omega)
    by_cases h0 : d.lock (slot size n) = emptyL
    · refine ⟨_, n + 1, .accept d hs (by rw [ht]; exact h0), by omega, by omega, ?_, rfl, rfl, h0, ?_, ?_⟩
      · simp only [ht]; unfold W at *; omega
      · rw [ht]; rfl
      · rw [ht]; rfl
    · have s' : SInv size { d with wr := (d.wr + 1) % W } (n + 1) fl :=
        ⟨by simp only [ht]; unfold W at *; omega, s.nobusy, s.flN, s.flM, s.flS, s.len⟩
      obtain ⟨d', n', g1, g2, g3, g4⟩ := ih _ (n + 1) s' (by omega) (by rw [show n + 1 + m = n + (m + 1) by omega]; exact he)
      refine ⟨d', n', .again d d' _ hs (by rw [ht]; exact h0) (Or.inr (by rw [s.len]; exact hfl)) g1, by omega, by omega, g4⟩

/-- If not all slots are full, one of the next `size` tickets leads to an empty one. -/
theorem empty_slot {d : Dec α} {n : Nat} {fl : List Nat} (s : SInv size d n fl) (hs : size ≠ 0) (hfl : fl.length < size) :
    ∃ m, m < size ∧ d.lock (slot size (n + m)) = emptyL := by
  obtain ⟨i, hi, hni⟩ : ∃ i, i < size ∧ i ∉ fl := by
    by_contra hc
    have : ∀ i, i < size → i ∈ fl := fun i hi => by
      by_contra h'; exact hc ⟨i, hi, h'⟩
    have := List.Subperm.length_le (List.subperm_of_subset List.nodup_range (fun i hi => this i (List.mem_range.1 hi)))
    simp at this
    omega
  have hpos := Nat.pos_of_ne_zero hs
  have hmod := Nat.mod_lt n hpos
  refine ⟨(i + (size - n % size)) % size, Nat.mod_lt _ hpos, ?_⟩
  have he : slot size (n + (i + (size - n % size)) % size) = i := by
    unfold slot
    rw [Nat.add_mod, Nat.mod_mod, ← Nat.add_mod]
    have e : n + (i + (size - n % size)) = i + size * (n / size + 1) := by
      have := Nat.div_add_mod n size
      rw [Nat.mul_add, Nat.mul_one]
      omega
    rw [e, Nat.add_mul_mod_self_left, Nat.mod_eq_of_lt hi]
  rw [he]
  rw [s.flM, full_iff] at hni
  by_contra hc
  exact hni ⟨hc, s.nobusy i⟩

theorem write_full {d : Dec α} {n : Nat} {fl : List Nat} {b : List α} (s : SInv size d n fl) (hs : size ≠ 0) (hfl : fl.length = size)
    (hn : n < W - 2) (hb : b.length ≠ 0) : Write size b d { d with wr := (d.wr + 1) % W } .dropped := by
  have ht := s.tick hn
  have hm : slot size n ∈ fl := by
    by_contra hc
    have := nodup_lt (l := slot size n :: fl) (List.nodup_cons.2 ⟨hc, s.flN⟩) (fun i hi => by
      rcases List.mem_cons.1 hi with e | hi
      · rw [e]; exact Nat.mod_lt _ (Nat.pos_of_ne_zero hs)
      · exact s.flS i hi)
    simp at this
    omega
  have hf := (full_iff _).1 ((s.flM _).1 hm)
  exact .loop d _ _ hb (.drop d hs (by rw [ht]; exact hf.1) (by rw [ht]; exact hf.2) (by rw [s.len]; exact hfl))

theorem write_room {d : Dec α} {n : Nat} {fl : List Nat} {b : List α} (s : SInv size d n fl) (hs : size ≠ 0) (hfl : fl.length < size)
    (hn : n + size < W - 2) (hb : b.length ≠ 0) : ∃ d' n' i, Write size b d d' (.accepted b.length) ∧
      n' ≤ n + size ∧ SInv size d' n' (i :: fl) ∧ d.lock i = emptyL ∧
      d'.rd = d.rd ∧ d'.buf = (fun x => if x = i then b else d.buf x) ∧ ∃ ts, d'.lock = (fun x => if x = i then ts else d.lock x) := by
  obtain ⟨m, hm, he⟩ := empty_slot s hs hfl
  obtain ⟨d', n', g1, g2, g3, g4, g5, g6, g7, g8, g9⟩ := wloop_accepts b hs (by omega) m d n s (by omega) he
  have hlt : n' - 1 < W - 2 := by omega
  have hts : full (n' - 1) = true := by rw [full_iff]; unfold emptyL busyL W at *; omega
  have hfe : full emptyL = false := by decide
  have hni : slot size (n' - 1) ∉ fl := fun h => by rw [s.flM, g7, hfe] at h; cases h
  refine ⟨d', n', slot size (n' - 1), .loop d d' _ hb g1, by omega, ?_, g7, g6, g9, n' - 1, g8⟩
  refine ⟨g4, fun i => ?_, List.nodup_cons.2 ⟨hni, s.flN⟩, fun i => ?_, fun i hi => ?_, ?_⟩
  · rw [g8]; dsimp only
    split
    · exact ((full_iff _).1 hts).2
    · exact s.nobusy i
  · rw [g8, List.mem_cons, s.flM]; dsimp only
    by_cases e : i = slot size (n' - 1)
    · simp [e, hts]
    · simp [e]
  · rcases List.mem_cons.1 hi with e | hi
    · rw [e]; exact Nat.mod_lt _ (Nat.pos_of_ne_zero hs)
    · exact s.flS i hi
  · rw [g5, s.len, Nat.mod_eq_of_lt (by unfold W at *; omega)]; rfl

theorem sinv_run (hs : size ≠ 0) {h : List (Ev α)} {d : Dec α} (r : Run size h d) (hh : (h.length + 1) * size < W - 2) :
    ∃ n fl, SInv size d n fl ∧ n ≤ h.length * size ∧ (acceptedOf h).length = (shownOf h).length + fl.length := by
  have hpos := Nat.pos_of_ne_zero hs
  induction r with
  | init =>
    refine ⟨0, [], ⟨by simp [Dec.init], fun i => by simp [Dec.init]; decide, List.nodup_nil, fun i => ?_, by simp, rfl⟩, by simp, by simp [acceptedOf, shownOf]⟩
    have : full emptyL = false := by decide
    simp [Dec.init, this]
  | @write h d d' b r' _ hw hr ih =>
    have e1 : (h ++ [Ev.write b r']).length = h.length + 1 := by simp
    rw [e1] at hh
    have e2 : (h.length + 1 + 1) * size = (h.length + 1) * size + size := Nat.succ_mul _ _
    have e3 : (h.length + 1) * size = h.length * size + size := Nat.succ_mul _ _
    obtain ⟨n, fl, s, hn, hc⟩ := ih (by omega)
    rw [e1, e3]
    by_cases hb : b.length = 0
    · obtain ⟨rfl, rfl⟩ := write_det hw (.empty d hb)
      exact ⟨n, fl, s, by omega, by rw [acceptedOf_append, shownOf_append]; simpa [acceptedOf, shownOf] using hc⟩
    · rcases Nat.lt_or_ge fl.length size with hfl | hfl
      · obtain ⟨d2, n', i, g1, g2, g3, _⟩ := write_room s hs hfl (by omega) hb
        obtain ⟨rfl, rfl⟩ := write_det hw g1
        refine ⟨n', i :: fl, g3, by omega, ?_⟩
        rw [acceptedOf_append, shownOf_append]
        simp [acceptedOf, shownOf] at hc ⊢
        omega
      · have hfl' : fl.length = size := by have := nodup_lt s.flN s.flS; omega
        obtain ⟨rfl, rfl⟩ := write_det hw (write_full s hs hfl' (by omega) hb)
        refine ⟨n + 1, fl, ⟨?_, s.nobusy, s.flN, s.flM, s.flS, s.len⟩, by omega, ?_⟩
        · simp only [s.tick (by omega)]; unfold W at *; omega
        · rw [acceptedOf_append, shownOf_append]; simpa [acceptedOf, shownOf] using hc
  | @shown h d d' b _ hx ih =>
    have e1 : (h ++ [Ev.next (.shown b)]).length = h.length + 1 := by simp
    rw [e1] at hh
    have e2 : (h.length + 1 + 1) * size = (h.length + 1) * size + size := Nat.succ_mul _ _
    have e3 : (h.length + 1) * size = h.length * size + size := Nat.succ_mul _ _
    obtain ⟨n, fl, s, hn, hc⟩ := ih (by omega)
    rw [e1, e3]
    unfold next at hx
    split at hx
    · cases hx
    · rename_i hl
      split at hx
      · cases hx
      · rename_i hlk
        simp only [Prod.mk.injEq] at hx
        obtain ⟨_, rfl⟩ := hx
        rw [not_or] at hlk
        have hm := (s.flM (slot size d.rd)).2 ((full_iff _).2 hlk)
        have hlp := List.length_pos_of_mem hm
        have hfe : full emptyL = false := by decide
        have hle := nodup_lt s.flN s.flS
        refine ⟨n, fl.erase (slot size d.rd), ⟨s.wr, fun i => ?_, s.flN.erase _, fun i => ?_,
          fun i hi => s.flS i (List.mem_of_mem_erase hi), ?_⟩, by omega, ?_⟩
        · dsimp only
          split
          · decide
          · exact s.nobusy i
        · rw [s.flN.mem_erase_iff, s.flM]; dsimp only
          by_cases e : i = slot size d.rd <;> simp [e, hfe]
        · rw [List.length_erase_of_mem hm]; dsimp only; rw [s.len]; unfold W at *; omega
        · rw [acceptedOf_append, shownOf_append, List.length_erase_of_mem hm]
          simp [acceptedOf, shownOf] at hc ⊢
          omega
  | @none h d d' _ hx ih =>
    have e1 : (h ++ [Ev.next (α := α) .none]).length = h.length + 1 := by simp
    rw [e1] at hh
    have e2 : (h.length + 1 + 1) * size = (h.length + 1) * size + size := Nat.succ_mul _ _
    have e3 : (h.length + 1) * size = h.length * size + size := Nat.succ_mul _ _
    obtain ⟨n, fl, s, hn, hc⟩ := ih (by omega)
    rw [e1, e3]
    unfold next at hx
    split at hx
    · simp only [Prod.mk.injEq, true_and] at hx
      subst hx
      exact ⟨n, fl, s, by omega, by rw [acceptedOf_append, shownOf_append]; simpa [acceptedOf, shownOf] using hc⟩
    · split at hx <;> cases hx

/-! ## Histories without a write to a full buffer -/

/-- Nothing was dropped for lack of room. -/
def NoDrop (h : List (Ev α)) : Prop := ∀ b, Ev.write b .dropped ∈ h → b = []

/-- `a`: payloads accepted; the first `k` have been shown. -/
structure FInv (size : Nat) (d : Dec α) (a : List (List α)) (k : Nat) : Prop where
  rd : d.rd = k
  wr : d.wr = (a.length + (W - 1)) % W
  len : d.len + k = a.length
  le : a.length ≤ k + size
  slots : ∀ i (h : i < a.length), k ≤ i → d.lock (slot size i) = i ∧ d.buf (slot size i) = a[i]
  free : ∀ s, (∀ i, k ≤ i → i < a.length → slot size i ≠ s) → d.lock s = emptyL

theorem slot_inj (hs : size ≠ 0) {i j k : Nat} (h1 : k ≤ i) (h2 : i < k + size) (h3 : k ≤ j) (h4 : j < k + size)
    (h : slot size i = slot size j) : i = j := by
  unfold slot at h
  have a := Nat.div_add_mod i size
  have b := Nat.div_add_mod j size
  rcases Nat.lt_trichotomy (i / size) (j / size) with g | g | g
  · have : size * (i / size + 1) ≤ size * (j / size) := Nat.mul_le_mul_left _ g
    rw [Nat.mul_add] at this; omega
  · rw [g, h] at a; omega
  · have : size * (j / size + 1) ≤ size * (i / size) := Nat.mul_le_mul_left _ g
    rw [Nat.mul_add] at this; omega

theorem FInv.next_empty {d : Dec α} {a : List (List α)} {k : Nat} (f : FInv size d a k) (h : k = a.length) :
    next size d = (.none, d) := by
  unfold next
  rw [if_pos (by have := f.len; omega)]

theorem FInv.next_shown {d : Dec α} {a : List (List α)} {k : Nat} (hs : size ≠ 0) (f : FInv size d a k) (h : k < a.length)
    (hn : a.length < W - 2) :
    ∃ d', next size d = (.shown a[k], d') ∧ FInv size d' a (k + 1) := by
  obtain ⟨f1, f2, f3, f4, f5, f6⟩ := f
  obtain ⟨g1, g2⟩ := f5 k h (Nat.le_refl _)
  have hf : full k = true := by rw [full_iff]; unfold emptyL busyL W at *; omega
  have hf' := (full_iff _).1 hf
  refine ⟨{ d with lock := fun i => if i = slot size k then emptyL else d.lock i, len := (d.len + (W - 1)) % W, rd := (k + 1) % W }, ?_, ?_⟩
  · unfold next
    rw [if_neg (by omega), if_neg hs, if_neg (by rw [f1, g1]; rintro (e | e); exacts [hf'.1 e, hf'.2 e]), f1, g2]
  · refine ⟨?_, f2, ?_, by omega, fun i hi hk => ?_, fun x hx => ?_⟩
    · dsimp only; rw [Nat.mod_eq_of_lt (by unfold W at *; omega)]
    · dsimp only; unfold W at *; omega
    · have : slot size i ≠ slot size k := fun e => by
        have := slot_inj hs (k := k) (by omega) (by omega) (Nat.le_refl _) (by omega) e
        omega
      dsimp only
      rw [if_neg this]
      exact f5 i hi (by omega)
    · dsimp only
      split
      · rfl
      · rename_i hx'
        refine f6 x (fun i h1 h2 e => ?_)
        by_cases e' : i = k
        · subst e'; exact hx' e.symm
        · exact hx i (by omega) h2 e

theorem FInv.write_room {d : Dec α} {a : List (List α)} {k : Nat} (hs : size ≠ 0) (f : FInv size d a k) (h : a.length < k + size)
    (hn : a.length < W - 2) {b : List α} (hb : b.length ≠ 0) :
    ∃ d', Write size b d d' (.accepted b.length) ∧ FInv size d' (a ++ [b]) k := by
  obtain ⟨f1, f2, f3, f4, f5, f6⟩ := f
  have ht : (d.wr + 1) % W = a.length := by rw [f2]; exact att_step (by unfold W at *; omega)
  have hne : ∀ i, k ≤ i → i < a.length → slot size i ≠ slot size a.length := fun i h1 h2 e => by
    have := slot_inj hs (k := k) h1 (by omega) (by omega) h e
    omega
  have hka : k ≤ a.length := by omega
  refine ⟨_, .loop d _ _ hb (.accept d hs (by rw [ht]; exact f6 _ hne)), ?_⟩
  rw [ht]
  refine ⟨f1, ?_, ?_, by simp; omega, fun i hi hk => ?_, fun x hx => ?_⟩
  · simp only [List.length_append, List.length_singleton]; unfold W at *; omega
  · simp only [List.length_append, List.length_singleton]
    rw [Nat.mod_eq_of_lt (by unfold W at *; omega)]; omega
  · simp only [List.length_append, List.length_singleton] at hi
    dsimp only
    by_cases e : i = a.length
    · subst e; simp
    · rw [if_neg (hne i hk (by omega)), if_neg (hne i hk (by omega)), List.getElem_append_left (by omega)]
      exact f5 i (by omega) hk
  · dsimp only
    simp only [List.length_append, List.length_singleton] at hx
    rw [if_neg (fun e => hx a.length hka (by omega) e.symm)]
    exact f6 x (fun i h1 h2 => hx i h1 (by omega))

theorem FInv.write_full {d : Dec α} {a : List (List α)} {k : Nat} (hs : size ≠ 0) (f : FInv size d a k) (h : a.length = k + size)
    (hn : a.length < W - 2) {b : List α} (hb : b.length ≠ 0) :
    ∃ d', Write size b d d' .dropped := by
  obtain ⟨f1, f2, f3, f4, f5, f6⟩ := f
  have ht : (d.wr + 1) % W = a.length := by rw [f2]; exact att_step (by unfold W at *; omega)
  have hpos := Nat.pos_of_ne_zero hs
  have e : slot size a.length = slot size k := by unfold slot; rw [h, Nat.add_mod_right]
  obtain ⟨g1, _⟩ := f5 k (by omega) (Nat.le_refl _)
  have hf : full k = true := by rw [full_iff]; unfold emptyL busyL W at *; omega
  have hf' := (full_iff _).1 hf
  exact ⟨_, .loop d _ _ hb (.drop d hs (by rw [ht, e, g1]; exact hf'.1) (by rw [ht, e, g1]; exact hf'.2) (by omega))⟩

theorem finv_run (hs : size ≠ 0) {h : List (Ev α)} {d : Dec α} (r : Run size h d) (hn : NoDrop h) (hh : h.length < W - 2) :
    ∃ k, k ≤ (acceptedOf h).length ∧ (acceptedOf h).length ≤ h.length ∧ FInv size d (acceptedOf h) k ∧
      shownOf h = (acceptedOf h).take k := by
  induction r with
  | init =>
    refine ⟨0, Nat.zero_le _, by simp [acceptedOf], ⟨rfl, by simp [Dec.init, acceptedOf], by simp [Dec.init, acceptedOf], by simp [acceptedOf], fun i hi => ?_, fun x _ => rfl⟩,
      by simp [shownOf, acceptedOf]⟩
    simp [acceptedOf] at hi
  | @write h d d' b r' _ hw hr ih =>
    have e1 : (h ++ [Ev.write b r']).length = h.length + 1 := by simp
    rw [e1] at hh
    obtain ⟨k, h1, h2, f, h3⟩ := ih (fun x hx => hn x (by simp [hx])) (by omega)
    rw [e1]
    by_cases hb : b.length = 0
    · obtain ⟨rfl, rfl⟩ := write_det hw (.empty d hb)
      have e2 : acceptedOf (h ++ [Ev.write b .dropped]) = acceptedOf h := by rw [acceptedOf_append]; simp [acceptedOf]
      have e3 : shownOf (h ++ [Ev.write b .dropped]) = shownOf h := by rw [shownOf_append]; simp [shownOf]
      rw [e2, e3]
      exact ⟨k, h1, by omega, f, h3⟩
    · rcases Nat.lt_or_ge (acceptedOf h).length (k + size) with hl | hl
      · obtain ⟨d2, g1, g2⟩ := f.write_room hs hl (by omega) hb
        obtain ⟨rfl, rfl⟩ := write_det hw g1
        have e2 : acceptedOf (h ++ [Ev.write b (.accepted b.length)]) = acceptedOf h ++ [b] := by
          rw [acceptedOf_append]; simp [acceptedOf]
        have e3 : shownOf (h ++ [Ev.write b (.accepted b.length)]) = shownOf h := by rw [shownOf_append]; simp [shownOf]
        rw [e2, e3]
        exact ⟨k, by simp; omega, by simp; omega, g2, by rw [List.take_append_of_le_length h1, h3]⟩
      · exfalso
        obtain ⟨d2, g⟩ := f.write_full hs (by have := f.le; omega) (by omega) hb
        obtain ⟨rfl, rfl⟩ := write_det hw g
        have := hn b (by simp)
        rw [this] at hb; simp at hb
  | @shown h d d' b _ hx ih =>
    have e1 : (h ++ [Ev.next (.shown b)]).length = h.length + 1 := by simp
    rw [e1] at hh
    obtain ⟨k, h1, h2, f, h3⟩ := ih (fun x hx => hn x (by simp [hx])) (by omega)
    rw [e1]
    have e2 : acceptedOf (h ++ [Ev.next (.shown b)]) = acceptedOf h := by rw [acceptedOf_append]; simp [acceptedOf]
    have e3 : shownOf (h ++ [Ev.next (.shown b)]) = shownOf h ++ [b] := by rw [shownOf_append]; simp [shownOf]
    rcases Nat.lt_or_ge k (acceptedOf h).length with hk | hk
    · obtain ⟨d2, g1, g2⟩ := f.next_shown hs hk (by omega)
      rw [hx] at g1
      simp only [Prod.mk.injEq, NRes.shown.injEq] at g1
      obtain ⟨rfl, rfl⟩ := g1
      rw [e2, e3, h3]
      exact ⟨k + 1, hk, by omega, g2, (List.take_append_getElem hk)⟩
    · rw [f.next_empty (by omega)] at hx
      cases hx
  | @none h d d' _ hx ih =>
    have e1 : (h ++ [Ev.next (α := α) .none]).length = h.length + 1 := by simp
    rw [e1] at hh
    obtain ⟨k, h1, h2, f, h3⟩ := ih (fun x hx => hn x (by simp [hx])) (by omega)
    rw [e1]
    have e2 : acceptedOf (h ++ [Ev.next (α := α) .none]) = acceptedOf h := by rw [acceptedOf_append]; simp [acceptedOf]
    have e3 : shownOf (h ++ [Ev.next (α := α) .none]) = shownOf h := by rw [shownOf_append]; simp [shownOf]
    rw [e2, e3]
    rcases Nat.lt_or_ge k (acceptedOf h).length with hk | hk
    · obtain ⟨d2, g1, g2⟩ := f.next_shown hs hk (by omega)
      rw [hx] at g1
      cases g1
    · rw [f.next_empty (by omega)] at hx
      simp only [Prod.mk.injEq, true_and] at hx
      subst hx
      exact ⟨k, h1, by omega, f, h3⟩

end Verif.Decouple
