import Verif.BitAlloc.Spec
import Verif.BitSet.Props
import Verif.HandOut.Lemmas
import Verif.Conc.Later
/-!
# Lemmas for C181
-/
namespace Verif.BitAlloc
open Verif.Go Verif.Conc Verif.BitSet
open Verif.Linked (Res)

variable {w : Nat}

theorem test_one (d : BitVec w) (i : Nat) : test d [(i : Int)] = .ret (d.getLsbD i) := by
  obtain ⟨h1, h2, -⟩ := C32_test d [(i : Int)]
  have hh : Hit d (i : Int) ↔ d.getLsbD i = true := by
    constructor
    · rintro ⟨k, hk, e, hg⟩
      have : k = i := by omega
      exact this ▸ hg
    · intro hg
      exact ⟨i, BitVec.lt_of_getLsbD hg, rfl, hg⟩
  cases hg : d.getLsbD i with
  | true => exact h1.2 ⟨i, by simp [before], hh.2 hg⟩
  | false =>
    refine h2.2 ⟨by simp, ?_⟩
    intro j hj hit
    rw [List.mem_singleton] at hj
    subst hj
    rw [hh, hg] at hit
    cases hit

theorem set_one (d : BitVec w) (i : Nat) : (set d [(i : Int)]).2 = .ret () ∧ ∀ j, (set d [(i : Int)]).1.getLsbD j = true ↔ d.getLsbD j = true ∨ j = i ∧ i < w := by
  obtain ⟨h1, -, h3⟩ := C32_set d [(i : Int)]
  refine ⟨h1.2 (by simp), fun j => ?_⟩
  by_cases hj : j < w
  · rw [h3 j hj, show (j : Int) ∈ before [(i : Int)] ↔ j = i by simp [before]]
    exact or_congr_right ⟨fun h => ⟨h, h ▸ hj⟩, And.left⟩
  · simp [BitVec.getLsbD_of_ge _ _ (Nat.le_of_not_lt hj)]
    omega

theorem clear_one (d : BitVec w) (i : Int) : ((0 ≤ i ∧ (clear d [i]).2 = .ret ()) ∨ i < 0 ∧ (clear d [i]).2 = .panic) ∧
    ∀ j, (clear d [i]).1.getLsbD j = true ↔ d.getLsbD j = true ∧ (j : Int) ≠ i := by
  obtain ⟨h1, h2, h3⟩ := C32_clear d [i]
  constructor
  · by_cases hi : 0 ≤ i
    · exact .inl ⟨hi, h1.2 (by simpa using hi)⟩
    · exact .inr ⟨by omega, h2.2 ⟨i, by simp, by omega⟩⟩
  · intro j
    by_cases hj : j < w
    · rw [h3 j hj]
      by_cases hi : 0 ≤ i
      · simp [before, hi]
      · simp [before, hi]; omega
    · simp [BitVec.getLsbD_of_ge _ _ (Nat.le_of_not_lt hj)]

theorem mark_eq (d : BitVec w) (i : Nat) : mark d i = .ret ((set d [(i : Int)]).1, some i) := by
  rw [mark, (set_one d i).1]; rfl

/-- The loop finds the first clear bit. -/
theorem find_eq (d : BitVec w) {m : Nat} (hm : d.getLsbD m = false) (hb : ∀ j, j < m → d.getLsbD j = true) : ∀ f i, i ≤ m → m < i + f → find d f i = .ret m := by
  intro f
  induction f with
  | zero => intro i h1 h2; omega
  | succ f ih =>
    intro i h1 h2
    rw [find, test_one]
    by_cases hi : i = m
    · subst hi; simp [hm]
    · simp [hb i (by omega), ih (i + 1) (by omega) (by omega)]

theorem scan_eq (d : BitVec w) {m : Nat} (hm : d.getLsbD m = false) (hb : ∀ j, j < m → d.getLsbD j = true) : ∀ r i, i ≤ m → m < i + r → scan d r i = .ret (some m) := by
  intro r
  induction r with
  | zero => intro i h1 h2; omega
  | succ r ih =>
    intro i h1 h2
    rw [scan, test_one]
    by_cases hi : i = m
    · subst hi; simp [hm]
    · simp [hb i (by omega), ih (i + 1) (by omega) (by omega)]

theorem scan_none (d : BitVec w) : ∀ r i, (∀ j, i ≤ j → j < i + r → d.getLsbD j = true) → scan d r i = .ret none := by
  intro r
  induction r with
  | zero => intro i _; rfl
  | succ r ih =>
    intro i h
    rw [scan, test_one]
    simp [h i (by omega) (by omega), ih (i + 1) fun j h1 h2 => h j (by omega) (by omega)]

/-- The first clear bit below `n`, or there is none. -/
theorem first (d : BitVec w) (n : Nat) : (∀ j, j < n → d.getLsbD j = true) ∨ ∃ m, m < n ∧ d.getLsbD m = false ∧ ∀ j, j < m → d.getLsbD j = true := by
  induction n with
  | zero => exact .inl nofun
  | succ n ih =>
    rcases ih with h | ⟨m, h1, h2⟩
    · cases hn : d.getLsbD n with
      | true =>
        refine .inl fun j hj => ?_
        rcases Nat.lt_or_ge j n with h' | h'
        · exact h j h'
        · have : j = n := by omega
          exact this ▸ hn
      | false => exact .inr ⟨n, by omega, hn, h⟩
    · exact .inr ⟨m, by omega, h2⟩

/-- What an implementation of `alloc` must do for the numbers below `n`. -/
def Right (n : Nat) (al : BitVec w → Outcome (BitVec w × Option Nat)) : Prop :=
  ∀ d, (∀ j, j < n → d.getLsbD j = true) ∧ al d = .ret (d, none) ∨
    ∃ m, m < n ∧ d.getLsbD m = false ∧ (∀ j, j < m → d.getLsbD j = true) ∧ al d = .ret ((set d [(m : Int)]).1, some m)

theorem alloc_right : Right w (alloc (w := w)) := by
  intro d
  have hf := (C33_whole_set d).2.1
  rcases first d w with h | ⟨m, h1, h2, h3⟩
  · exact .inl ⟨h, by rw [alloc, if_pos (hf.2 h)]⟩
  · refine .inr ⟨m, h1, h2, h3, ?_⟩
    rw [alloc, if_neg (fun hc => by rw [hf.1 hc m h1] at h2; cases h2), find_eq d h2 h3 _ _ (Nat.zero_le _) (by omega)]
    exact mark_eq d m

theorem below_right (n : Nat) : Right n (allocBelow (w := w) n) := by
  intro d
  rcases first d n with h | ⟨m, h1, h2, h3⟩
  · exact .inl ⟨h, by rw [allocBelow, scan_none d n 0 fun j _ hj => h j (by omega)]; rfl⟩
  · refine .inr ⟨m, h1, h2, h3, ?_⟩
    rw [allocBelow, scan_eq d h2 h3 _ _ (Nat.zero_le _) (by omega)]
    exact mark_eq d m

/-- The bits that are set are the numbers in use. -/
def Agree (d : BitVec w) (U : Nat → Prop) : Prop := ∀ j, U j ↔ d.getLsbD j = true

theorem sim_step {n : Nat} (hn : n ≤ w) {al : BitVec w → Outcome (BitVec w × Option Nat)} (ra : Right n al) (d d' : BitVec w) (c : Call) (r : Res Nat) (U : Nat → Prop)
    (ag : Agree d U) (st : call al d c r d') : ∃ U', (numbers n).step U c r U' ∧ Agree d' U' := by
  refine ⟨fun j => d'.getLsbD j = true, ?_, fun _ => Iff.rfl⟩
  cases c with
  | alloc =>
    obtain ⟨x, e, rfl⟩ := st
    rcases ra d with ⟨h, e'⟩ | ⟨m, h1, h2, h3, e'⟩
    · rw [e'] at e
      cases e
      exact .inr ⟨rfl, fun i hi => (ag i).2 (h i hi), fun j => (ag j).symm⟩
    · rw [e'] at e
      cases e
      refine .inl ⟨m, rfl, h1, fun hU => ?_, fun j hj => (ag j).2 (h3 j hj), fun j => ?_⟩
      · rw [ag, h2] at hU; cases hU
      · beta_reduce
        rw [(set_one d m).2 j, ag j]
        constructor
        · rintro (h | h)
          · exact .inr h
          · exact .inl h.1
        · rintro (h | h)
          · exact .inr ⟨h, by omega⟩
          · exact .inl h
  | free i =>
    obtain ⟨rfl, rfl⟩ := st
    obtain ⟨h1, h2⟩ := clear_one d i
    refine ⟨?_, fun j => by beta_reduce; rw [h2 j, ag j]⟩
    rcases h1 with ⟨h, e⟩ | ⟨h, e⟩
    · exact .inl ⟨h, by rw [e]⟩
    · exact .inr ⟨h, by rw [e]⟩
  | used i =>
    obtain ⟨rfl, rfl⟩ := st
    refine ⟨?_, fun j => (ag j).symm⟩
    by_cases hi : 0 ≤ i
    · obtain ⟨k, rfl⟩ := Int.eq_ofNat_of_zero_le hi
      exact .inl ⟨hi, d'.getLsbD k, by rw [test_one], by simp [ag k]⟩
    · refine .inr ⟨by omega, ?_⟩
      have : test d' [i] = .panic := (C32_test d' [i]).2.2.2 ⟨⟨i, by simp, by omega⟩, by simp [before, hi]⟩
      rw [this]

theorem total {n : Nat} {al : BitVec w → Outcome (BitVec w × Option Nat)} (ra : Right n al) (d : BitVec w) (c : Call) : ∃ r d', call al d c r d' := by
  cases c with
  | alloc =>
    rcases ra d with ⟨-, e⟩ | ⟨m, -, -, -, e⟩
    · exact ⟨_, _, _, e, rfl⟩
    · exact ⟨_, _, _, e, rfl⟩
  | free i => exact ⟨_, _, rfl, rfl⟩
  | used i => exact ⟨_, _, rfl, rfl⟩

/-- A number in use stays in use until it is given back. -/
theorem kept {n i : Nat} {S1 : List (Nat × Call × Res Nat)} (ha : ∀ U, Legal (numbers n) S1 U → U i) :
    ∀ {S2 U}, Legal (numbers n) (S1 ++ S2) U → U i ∨ ∃ f r, (f, .free i, r) ∈ S2 := by
  intro S2
  induction S2 using List.reverseRecOn with
  | nil => intro U h; exact .inl (ha U (by simpa using h))
  | append_singleton S2 x ih =>
    intro U h
    obtain ⟨id, c, r⟩ := x
    rw [← List.append_assoc] at h
    obtain ⟨U0, h0, st⟩ := RW.legal_last h
    rcases ih h0 with hm | ⟨f, r', hf⟩
    · cases c with
      | alloc =>
        rcases st with ⟨k, -, -, -, -, hu⟩ | ⟨-, -, hu⟩
        · exact .inl ((hu i).2 (.inr hm))
        · exact .inl ((hu i).2 hm)
      | free k =>
        by_cases hk : (i : Int) = k
        · subst hk; exact .inr ⟨id, r, by simp⟩
        · exact .inl ((st.2 i).2 ⟨hm, hk⟩)
      | used k => exact .inl ((st.2 i).2 hm)
    · exact .inr ⟨f, r', by simp [hf]⟩

/-- A number in use was handed out. -/
theorem given {n i : Nat} {S : List (Nat × Call × Res Nat)} {U : Nat → Prop} (h : Legal (numbers n) S U) : U i → i < n ∧ ∃ a, (a, .alloc, .val i) ∈ S := by
  induction h with
  | nil => exact False.elim
  | @snoc S U U' id c r _ st ih =>
    intro hi
    have go : U i → i < n ∧ ∃ a, (a, .alloc, .val i) ∈ S ++ [(id, c, r)] := fun h => by
      obtain ⟨h1, a, h2⟩ := ih h
      exact ⟨h1, a, by simp [h2]⟩
    cases c with
    | alloc =>
      rcases st with ⟨k, rfl, hk, -, -, hu⟩ | ⟨-, -, hu⟩
      · rcases (hu i).1 hi with rfl | hi
        · exact ⟨hk, id, by simp⟩
        · exact go hi
      · exact go ((hu i).1 hi)
    | free k => exact go ((st.2 i).1 hi).1
    | used k => exact go ((st.2 i).1 hi)

/-- One after the other, the same number: it was given back in between. -/
theorem again {n i a b : Nat} {S : List (Nat × Call × Res Nat)} {U : Nat → Prop} (h : Legal (numbers n) S U) (hb : Before S (a, .alloc, .val i) (b, .alloc, .val i)) :
    ∃ f r, Before S (a, .alloc, .val i) (f, .free i, r) ∧ Before S (f, .free i, r) (b, .alloc, .val i) := by
  obtain ⟨A, B, C, hS⟩ := hb
  rw [show S = ((A ++ [(a, Call.alloc, Res.val i)]) ++ B) ++ [(b, .alloc, .val i)] ++ C by rw [hS]; simp] at h
  obtain ⟨U2, h⟩ := RW.legal_split h
  obtain ⟨U1, h, st⟩ := RW.legal_last h
  have taken : ∀ U, Legal (numbers n) (A ++ [(a, Call.alloc, Res.val i)]) U → U i := by
    intro U hU
    obtain ⟨U0, -, st⟩ := RW.legal_last hU
    rcases st with ⟨k, e, -, -, -, hu⟩ | ⟨e, -⟩
    · cases e; exact (hu i).2 (.inl rfl)
    · cases e
  rcases kept taken h with hi | ⟨f, r, hf⟩
  · rcases st with ⟨k, e, -, hk, -⟩ | ⟨e, -⟩
    · cases e; exact absurd hi hk
    · cases e
  · obtain ⟨b1, b2, rfl⟩ := List.append_of_mem hf
    exact ⟨f, r, ⟨A, b1, b2 ++ (b, .alloc, .val i) :: C, by rw [hS]; simp⟩, ⟨A ++ (a, .alloc, .val i) :: b1, b2, C, by rw [hS]; simp⟩⟩

theorem before_total {α : Type} {S : List α} {x y : α} (hx : x ∈ S) (hy : y ∈ S) (hne : x ≠ y) : Before S x y ∨ Before S y x := by
  obtain ⟨a, b, rfl⟩ := List.append_of_mem hx
  rcases List.mem_append.1 hy with hy | hy
  · obtain ⟨c, d, rfl⟩ := List.append_of_mem hy
    exact .inr ⟨c, d, b, by simp⟩
  · rcases List.mem_cons.1 hy with rfl | hy
    · exact absurd rfl hne
    · obtain ⟨c, d, rfl⟩ := List.append_of_mem hy
      exact .inl ⟨a, c, d, by simp⟩

/-- Histories of the pool of numbers. -/
theorem exclusive {n : Nat} {h : List (Event Call (Res Nat))} (hl : Linearizable (numbers n) h) (un : ∀ id c c', Event.inv id c ∈ h → Event.inv id c' ∈ h → c = c') : Exclusive h := by
  obtain ⟨S, U, lin⟩ := hl
  intro a b i hne ia ib ra rb
  obtain ⟨c1, m1⟩ := lin.returned _ _ ra
  obtain ⟨c2, m2⟩ := lin.returned _ _ rb
  have e1 := un _ _ _ (lin.invoked _ m1) ia
  have e2 := un _ _ _ (lin.invoked _ m2) ib
  simp only at e1 e2
  subst e1 e2
  have one : ∀ {a b}, (a, Call.alloc, Res.val i) ∈ S → (b, Call.alloc, Res.val i) ∈ S → Before S (a, Call.alloc, Res.val i) (b, .alloc, .val i) →
      (∀ r c, ¬ Before h (.ret b r) (.inv a c)) ∧ ∃ f, Between h i a b f := by
    intro a b m1 m2 hb
    obtain ⟨f, r, h1, h2⟩ := again lin.legal hb
    have m3 := h1.mem.2
    exact ⟨fun r' c' hb' => HandOut.before_asymm lin.once hb (lin.realtime _ m2 _ m1 r' c' hb'), f, lin.invoked _ m3,
      fun r' c' hb' => HandOut.before_asymm lin.once h1 (lin.realtime _ m3 _ m1 r' c' hb'),
      fun r' c' hb' => HandOut.before_asymm lin.once h2 (lin.realtime _ m2 _ m3 r' c' hb')⟩
  rcases before_total m1 m2 (fun e => hne (congrArg Prod.fst e)) with hb | hb
  · exact .inl (one m1 m2 hb)
  · exact .inr (one m2 m1 hb)

end Verif.BitAlloc
