import Verif.DecOrder.Spec
import Mathlib.Data.Int.ModEq
/-!
# The window of tickets between the reader and the producer
-/
namespace Verif.DecOrder
open Verif.Decouple
variable {α : Type} {size : Nat} {payload : Nat → List α}

theorem pay_succ_ne {m : Nat} (h : payload m ≠ []) : pay payload (m + 1) = pay payload m ++ [payload m] := by
  simp [pay, List.range_succ, List.filter_append, h]

theorem pay_succ_nil {m : Nat} (h : payload m = []) : pay payload (m + 1) = pay payload m := by
  simp [pay, List.range_succ, List.filter_append, h]

/-- Where call `m` stands: `f` tickets are stored, `a` were taken. -/
def At (payload : Nat → List α) (m f a : Nat) : WPc → Prop
  | .new => f = (pay payload m).length ∧ a = f
  | .add => payload m ≠ [] ∧ f = (pay payload m).length ∧ a = f
  | .load ts | .cas ts | .copy ts | .store ts => payload m ≠ [] ∧ ts = f ∧ f = (pay payload m).length ∧ a = f + 1
  | .incr | .accepted => payload m ≠ [] ∧ f = (pay payload m).length + 1 ∧ a = f
  | .dropped => payload m = [] ∧ f = (pay payload m).length ∧ a = f
  | .chk => False

/-- The producer holds the slot of its ticket. -/
def holding : WPc → Bool
  | .copy _ | .store _ => true
  | _ => false

/-- The producer has seen the slot of its ticket empty. -/
def claims : WPc → Bool
  | .cas _ | .copy _ | .store _ => true
  | _ => false

/-- How many tickets are cleared, from the position of the reader. -/
def cleared (rd : Nat) : RPc → Nat
  | .decr => rd + 1
  | _ => rd

/-- How many payloads have been shown. -/
def viewed (rd : Nat) : RPc → Nat
  | .decr | .clear _ => rd + 1
  | _ => rd

/-- The calls before `m` have returned, `m` is the current one, the later ones have not started; the stored
and not yet cleared tickets are `c, ..., f - 1`. -/
structure Ord (size : Nat) (payload : Nat → List α) (s : St α) (m f : Nat) : Prop where
  before : ∀ i, i < m → s.wpc i = .accepted ∨ s.wpc i = .dropped
  after : ∀ i, m < i → s.wpc i = .new
  cur : At payload m f s.attempts (s.wpc m)
  wr : s.wr = (s.attempts + (W - 1)) % W
  lo : cleared s.rd s.rpc ≤ f
  win : f ≤ cleared s.rd s.rpc + size
  full : ∀ k, cleared s.rd s.rpc ≤ k → k < f → s.lock (k % size) = k ∧ (pay payload (m + 1))[k]? = some (s.buf (k % size))
  rest : ∀ i, (∀ k, cleared s.rd s.rpc ≤ k → k < f → k % size ≠ i) →
    s.lock i = if holding (s.wpc m) = true ∧ i = f % size then busyL else emptyL
  own : claims (s.wpc m) = true → ∀ k, cleared s.rd s.rpc ≤ k → k < f → k % size ≠ f % size
  buf : ∀ ts, s.wpc m = .store ts → s.buf (f % size) = payload m
  len : s.len + cleared s.rd s.rpc + (if s.wpc m = .incr then 1 else 0) = f + (if s.rpc = .decr then 1 else 0)
  pos : s.rpc ≠ .idle → 0 < s.len
  slot_ : ∀ i, (s.rpc = .spin i ∨ s.rpc = .view i ∨ s.rpc = .clear i) → i = s.rd % size
  log : s.log = (pay payload (m + 1)).take (viewed s.rd s.rpc)

theorem at_self (s : St α) (j : Nat) (p : WPc) : (s.at j p).wpc j = p := by simp [St.at]

theorem at_other (s : St α) {i j : Nat} (p : WPc) (h : i ≠ j) : (s.at j p).wpc i = s.wpc i := by simp [St.at, h]

theorem viewed_le {s : St α} {m f : Nat} (o : Ord size payload s m f) : viewed s.rd s.rpc ≤ f := by
  have h1 := o.lo
  have h2 := o.len
  have h3 := o.pos
  cases hr : s.rpc with
  | idle => rw [hr] at h1; exact h1
  | spin i => rw [hr] at h1; exact h1
  | view i => rw [hr] at h1; exact h1
  | decr => rw [hr] at h1; exact h1
  | clear i =>
    rw [hr] at h2 h3
    have := h3 (by simp)
    simp [cleared] at h2
    simp only [viewed]
    omega

theorem pay_prefix (m : Nat) : ∃ t, pay payload (m + 1) = pay payload m ++ t := by
  by_cases h : payload m = []
  · exact ⟨[], by rw [pay_succ_nil h, List.append_nil]⟩
  · exact ⟨_, pay_succ_ne h⟩

/-- A returned call gives way to the next one. -/
theorem Ord.advance {s : St α} {m f : Nat} (o : Ord size payload s m f) (hd : s.wpc m = .accepted ∨ s.wpc m = .dropped) :
    Ord size payload s (m + 1) f := by
  have hv := viewed_le o
  have hn := o.after (m + 1) (by omega)
  have hc : f = (pay payload (m + 1)).length ∧ s.attempts = f := by
    have := o.cur
    rcases hd with hd | hd <;> rw [hd] at this
    · obtain ⟨h1, h2, h3⟩ := this
      rw [pay_succ_ne h1]; simp; omega
    · obtain ⟨h1, h2, h3⟩ := this
      rw [pay_succ_nil h1]; omega
  obtain ⟨t, ht⟩ := pay_prefix (payload := payload) (m + 1)
  have hni : s.wpc m ≠ .incr := by rcases hd with hd | hd <;> rw [hd] <;> simp
  have hnh : holding (s.wpc m) = false := by rcases hd with hd | hd <;> rw [hd] <;> rfl
  have hl := o.len
  have hrest := o.rest
  rw [if_neg hni] at hl
  constructor
  · intro i hi
    rcases Nat.lt_succ_iff_lt_or_eq.1 hi with h | rfl
    · exact o.before i h
    · exact hd
  · exact fun i hi => o.after i (by omega)
  · rw [hn]; exact hc
  · exact o.wr
  · exact o.lo
  · exact o.win
  · intro k h1 h2
    obtain ⟨g1, g2⟩ := o.full k h1 h2
    exact ⟨g1, by rw [ht, List.getElem?_append_left (by omega), g2]⟩
  · intro i hi
    rw [hrest i hi, hnh, hn]
    simp [holding]
  · intro h; rw [hn] at h; cases h
  · intro ts h; rw [hn] at h; cases h
  · rw [if_neg (by rw [hn]; simp)]; exact hl
  · exact o.pos
  · exact o.slot_
  · rw [ht, List.take_append_of_le_length (by omega)]; exact o.log

/-- Only the current call can be under way. -/
theorem Ord.active {s : St α} {m f j : Nat} (o : Ord size payload s m f) (h1 : s.wpc j ≠ .new) (h2 : s.wpc j ≠ .accepted)
    (h3 : s.wpc j ≠ .dropped) : j = m := by
  rcases Nat.lt_trichotomy j m with h | h | h
  · rcases o.before j h with h | h
    · exact absurd h h2
    · exact absurd h h3
  · exact h
  · exact absurd (o.after j h) h1

/-- The call that starts is the current one, or the next one after a return. -/
theorem Ord.starts {s : St α} {m f j : Nat} (o : Ord size payload s m f) (hj : s.wpc j = .new)
    (ht : ∀ i, i < j → s.wpc i = .accepted ∨ s.wpc i = .dropped) : Ord size payload s j f := by
  rcases Nat.lt_trichotomy j m with h | h | h
  · rcases o.before j h with h | h <;> rw [hj] at h <;> cases h
  · subst h; exact o
  · have hm := ht m h
    by_cases e : j = m + 1
    · subst e; exact o.advance hm
    · have := o.after (m + 1) (by omega)
      rcases ht (m + 1) (by omega) with h | h <;> rw [this] at h <;> cases h

/-- A step of the current call that changes neither slots nor counters. -/
theorem Ord.move {s : St α} {m f : Nat} (o : Ord size payload s m f) {p : WPc} (hc : At payload m f s.attempts p)
    (h1 : holding (s.wpc m) = false) (h2 : holding p = false) (h3 : s.wpc m ≠ .incr) (h4 : p ≠ .incr)
    (h5 : claims p = true → ∀ k, cleared s.rd s.rpc ≤ k → k < f → k % size ≠ f % size) :
    Ord size payload (s.at m p) m f := by
  have hl := o.len
  have hrest := o.rest
  rw [if_neg h3] at hl
  refine ⟨fun i hi => ?_, fun i hi => ?_, ?_, o.wr, o.lo, o.win, o.full, fun i hi => ?_, ?_, ?_, ?_, o.pos, o.slot_, o.log⟩
  · rw [at_other s p (by omega)]; exact o.before i hi
  · rw [at_other s p (by omega)]; exact o.after i hi
  · rw [at_self]; exact hc
  · rw [at_self, h2]; have := hrest i hi; rw [h1] at this; exact this
  · rw [at_self]; exact h5
  · rw [at_self]; intro ts h; rw [h] at h2; cases h2
  · rw [at_self, if_neg h4]; exact hl

theorem Ord.lock_cases {s : St α} {m f : Nat} (o : Ord size payload s m f) (i : Nat) :
    (∃ k, cleared s.rd s.rpc ≤ k ∧ k < f ∧ k % size = i) ∨
      ((∀ k, cleared s.rd s.rpc ≤ k → k < f → k % size ≠ i) ∧
        s.lock i = if holding (s.wpc m) = true ∧ i = f % size then busyL else emptyL) := by
  by_cases h : ∃ k, cleared s.rd s.rpc ≤ k ∧ k < f ∧ k % size = i
  · exact Or.inl h
  · have h' : ∀ k, cleared s.rd s.rpc ≤ k → k < f → k % size ≠ i := fun k h1 h2 h3 => h ⟨k, h1, h2, h3⟩
    exact Or.inr ⟨h', o.rest i h'⟩

theorem Ord.f_le {s : St α} {m f : Nat} (o : Ord size payload s m f) : f ≤ s.attempts := by
  have := o.cur
  cases h : s.wpc m <;> rw [h] at this <;> simp only [At] at this <;> omega

theorem ord_add {s : St α} {m f : Nat} (o : Ord size payload s m f) (h : s.wpc m = .add) (ha : s.attempts + 1 < W - 2) :
    Ord size payload ({ s with wr := (s.wr + 1) % W, attempts := s.attempts + 1 }.at m (.load ((s.wr + 1) % W))) m f := by
  have hts : (s.wr + 1) % W = s.attempts := by
    rw [o.wr]; unfold W at *; omega
  have hc := o.cur
  have hl := o.len
  have hrest := o.rest
  rw [h] at hc hl hrest
  obtain ⟨c1, c2, c3⟩ := hc
  rw [hts]
  refine ⟨fun i hi => ?_, fun i hi => ?_, ?_, ?_, o.lo, o.win, o.full, fun i hi => ?_, ?_, ?_, ?_, o.pos, o.slot_, o.log⟩
  · rw [at_other _ _ (by omega)]; exact o.before i hi
  · rw [at_other _ _ (by omega)]; exact o.after i hi
  · rw [at_self]; exact ⟨c1, by omega, c2, by simp only [St.at]; omega⟩
  · simp only [St.at]; unfold W at *; omega
  · rw [at_self]; exact hrest i hi
  · rw [at_self]; intro h; cases h
  · rw [at_self]; intro ts h; cases h
  · rw [at_self]; exact hl

theorem ord_cas {s : St α} {m f ts : Nat} (o : Ord size payload s m f) (h : s.wpc m = .cas ts) :
    Ord size payload ({ s with lock := fun i => if i = slot size ts then busyL else s.lock i }.at m (.copy ts)) m f := by
  have hc := o.cur
  have hl := o.len
  have hrest := o.rest
  have hown := o.own
  rw [h] at hc hl hrest hown
  obtain ⟨c1, rfl, c2, c3⟩ := hc
  have hown := hown rfl
  refine ⟨fun i hi => ?_, fun i hi => ?_, ?_, o.wr, o.lo, o.win, fun k h1 h2 => ?_, fun i hi => ?_, ?_, ?_, ?_, o.pos, o.slot_, o.log⟩
  · rw [at_other _ _ (by omega)]; exact o.before i hi
  · rw [at_other _ _ (by omega)]; exact o.after i hi
  · rw [at_self]; exact ⟨c1, rfl, c2, c3⟩
  · obtain ⟨g1, g2⟩ := o.full k h1 h2
    refine ⟨?_, g2⟩
    simp only [St.at]
    rw [if_neg (by unfold slot; exact hown k h1 h2)]; exact g1
  · rw [at_self]
    simp only [St.at]
    by_cases e : i = ts % size
    · rw [if_pos (by unfold slot; exact e), if_pos ⟨rfl, e⟩]
    · rw [if_neg (by unfold slot; exact e), if_neg (by simp [e])]
      have := hrest i hi
      simpa [holding] using this
  · rw [at_self]; intro _; exact hown
  · rw [at_self]; intro ts h; cases h
  · rw [at_self]; exact hl

theorem ord_copy {s : St α} {m f ts : Nat} (o : Ord size payload s m f) (h : s.wpc m = .copy ts) :
    Ord size payload ({ s with buf := fun i => if i = slot size ts then payload m else s.buf i }.at m (.store ts)) m f := by
  have hc := o.cur
  have hl := o.len
  have hrest := o.rest
  have hown := o.own
  rw [h] at hc hl hrest hown
  obtain ⟨c1, rfl, c2, c3⟩ := hc
  have hown := hown rfl
  refine ⟨fun i hi => ?_, fun i hi => ?_, ?_, o.wr, o.lo, o.win, fun k h1 h2 => ?_, fun i hi => ?_, ?_, ?_, ?_, o.pos, o.slot_, o.log⟩
  · rw [at_other _ _ (by omega)]; exact o.before i hi
  · rw [at_other _ _ (by omega)]; exact o.after i hi
  · rw [at_self]; exact ⟨c1, rfl, c2, c3⟩
  · obtain ⟨g1, g2⟩ := o.full k h1 h2
    refine ⟨g1, ?_⟩
    simp only [St.at]
    rw [if_neg (by unfold slot; exact hown k h1 h2)]; exact g2
  · rw [at_self]; exact hrest i hi
  · rw [at_self]; intro _; exact hown
  · rw [at_self]; intro t _; simp [St.at, slot]
  · rw [at_self]; exact hl

theorem ord_store {s : St α} {m f ts : Nat} (hs : size ≠ 0) (o : Ord size payload s m f) (h : s.wpc m = .store ts) :
    Ord size payload ({ s with lock := fun i => if i = slot size ts then ts else s.lock i }.at m .incr) m (f + 1) := by
  have hc := o.cur
  have hl := o.len
  have hrest := o.rest
  have hown := o.own
  have hbuf := o.buf ts h
  have hwin := o.win
  have hlo := o.lo
  rw [h] at hc hl hrest hown
  obtain ⟨c1, rfl, c2, c3⟩ := hc
  have hown := hown rfl
  have hlt : ts < cleared s.rd s.rpc + size := by
    by_contra hx
    have : ts = cleared s.rd s.rpc + size := by omega
    exact hown (cleared s.rd s.rpc) (Nat.le_refl _) (by omega) (by rw [this, Nat.add_mod_right])
  refine ⟨fun i hi => ?_, fun i hi => ?_, ?_, o.wr, Nat.le_succ_of_le hlo, hlt, fun k h1 h2 => ?_, fun i hi => ?_, ?_, ?_, ?_, o.pos, o.slot_, o.log⟩
  · rw [at_other _ _ (by omega)]; exact o.before i hi
  · rw [at_other _ _ (by omega)]; exact o.after i hi
  · rw [at_self]; exact ⟨c1, by omega, c3⟩
  · simp only [St.at]
    by_cases e : k = ts
    · subst e
      rw [if_pos (by unfold slot; rfl), hbuf, pay_succ_ne c1, List.getElem?_append_right (by omega), c2]
      simp
    · obtain ⟨g1, g2⟩ := o.full k h1 (by omega)
      rw [if_neg (by unfold slot; exact hown k h1 (by omega))]
      exact ⟨g1, g2⟩
  · rw [at_self]
    simp only [St.at]
    have e : i ≠ ts % size := fun e => hi ts hlo (by omega) e.symm
    rw [if_neg (by unfold slot; exact e), if_neg (by simp [holding])]
    have := hrest i (fun k h1 h2 => hi k h1 (by omega))
    simpa [holding, e] using this
  · rw [at_self]; intro h; cases h
  · rw [at_self]; intro t h; cases h
  · rw [at_self]; simp only [St.at, if_true]
    rw [if_neg (by simp)] at hl; omega

theorem ord_incr {s : St α} {m f : Nat} (hz : size < W - 2) (o : Ord size payload s m f) (h : s.wpc m = .incr) :
    Ord size payload ({ s with len := (s.len + 1) % W }.at m .accepted) m f := by
  have hc := o.cur
  have hl := o.len
  have hrest := o.rest
  have hwin := o.win
  rw [h] at hc hl hrest
  rw [if_pos rfl] at hl
  have hd : (if s.rpc = .decr then 1 else 0) ≤ 1 := by split <;> omega
  have hlen : (s.len + 1) % W = s.len + 1 := by unfold W at *; omega
  rw [hlen]
  refine ⟨fun i hi => ?_, fun i hi => ?_, ?_, o.wr, o.lo, o.win, o.full, fun i hi => ?_, ?_, ?_, ?_, fun _ => Nat.succ_pos _, o.slot_, o.log⟩
  · rw [at_other _ _ (by omega)]; exact o.before i hi
  · rw [at_other _ _ (by omega)]; exact o.after i hi
  · rw [at_self]; exact hc
  · rw [at_self]; exact hrest i hi
  · rw [at_self]; intro h; cases h
  · rw [at_self]; intro t h; cases h
  · rw [at_self, if_neg (by simp)]; simp only [St.at]; omega

/-- The reader moves and nothing else changes. -/
theorem ord_reader {s : St α} {m f : Nat} (o : Ord size payload s m f) {p : RPc} (h1 : cleared s.rd p = cleared s.rd s.rpc)
    (h2 : viewed s.rd p = viewed s.rd s.rpc) (h3 : (p = .decr) ↔ (s.rpc = .decr)) (h4 : p ≠ .idle → 0 < s.len)
    (h5 : ∀ i, (p = .spin i ∨ p = .view i ∨ p = .clear i) → i = s.rd % size) : Ord size payload { s with rpc := p } m f := by
  refine ⟨o.before, o.after, o.cur, o.wr, ?_, ?_, ?_, ?_, ?_, o.buf, ?_, h4, h5, ?_⟩
  · simp only [h1]; exact o.lo
  · simp only [h1]; exact o.win
  · simp only [h1]; exact o.full
  · simp only [h1]; exact o.rest
  · simp only [h1]; exact o.own
  · simp only [h1]
    have := o.len
    by_cases e : s.rpc = .decr
    · rw [if_pos e] at this; rw [if_pos (h3.2 e)]; exact this
    · rw [if_neg e] at this; rw [if_neg (fun x => e (h3.1 x))]; exact this
  · simp only [h2]; exact o.log

theorem ord_view {s : St α} {m f i : Nat} (o : Ord size payload s m f) (h : s.rpc = .view i) :
    Ord size payload { s with log := s.log ++ [s.buf i], rpc := .clear i } m f := by
  have hl := o.len
  have hp := o.pos (by rw [h]; simp)
  have hi := o.slot_ i (by simp [h])
  have hlo := o.lo
  have hfull := o.full
  have hlog := o.log
  have hwin := o.win
  have hrest := o.rest
  have hown := o.own
  rw [h] at hl hlo hfull hlog hwin hrest hown
  simp only [cleared, viewed] at *
  rw [if_neg (c := (RPc.view i = RPc.decr)) (by simp)] at hl
  obtain ⟨g1, g2⟩ := hfull s.rd (Nat.le_refl _) (by omega)
  refine ⟨o.before, o.after, o.cur, o.wr, hlo, hwin, hfull, hrest, hown, o.buf, ?_, fun _ => hp, ?_, ?_⟩
  · simp only [cleared]; rw [if_neg (c := (RPc.clear i = RPc.decr)) (by simp)]; exact hl
  · intro j hj; simp at hj; subst hj; exact hi
  · simp only [viewed]
    rw [List.take_add_one, g2, hlog, hi]; rfl

theorem ord_clear {s : St α} {m f i : Nat} (o : Ord size payload s m f) (h : s.rpc = .clear i) :
    Ord size payload { s with lock := fun x => if x = i then emptyL else s.lock x, rpc := .decr } m f := by
  have hl := o.len
  have hp := o.pos (by rw [h]; simp)
  have hi := o.slot_ i (by simp [h])
  have hlo := o.lo
  have hfull := o.full
  have hlog := o.log
  have hwin := o.win
  have hrest := o.rest
  have hown := o.own
  rw [h] at hl hlo hfull hlog hwin hrest hown
  simp only [cleared, viewed] at *
  rw [if_neg (c := (RPc.clear i = RPc.decr)) (by simp)] at hl
  have hlt : s.rd < f := by omega
  have hne : ∀ k, s.rd + 1 ≤ k → k < f → k % size ≠ i := by
    intro k h1 h2 e
    rw [hi] at e
    have e1 : k ≡ s.rd [MOD size] := e
    have := Nat.ModEq.dvd e1.symm
    have h3 : ((size : Int)) ∣ ((k - s.rd : Nat) : Int) := by
      rw [Nat.cast_sub (by omega)]; exact this
    have := Nat.le_of_dvd (by omega) (Int.natCast_dvd_natCast.1 h3)
    omega
  refine ⟨o.before, o.after, o.cur, o.wr, hlt, by simp only [cleared]; omega, fun k h1 h2 => ?_, fun j hj => ?_, fun hh k h1 h2 => ?_, o.buf, ?_, fun _ => hp, ?_, hlog⟩
  · obtain ⟨g1, g2⟩ := hfull k (by simp only [cleared] at h1; omega) h2
    simp only
    rw [if_neg (hne k h1 h2)]
    exact ⟨g1, g2⟩
  · simp only
    by_cases e : j = i
    · rw [if_pos e]
      by_cases hh : holding (s.wpc m) = true ∧ j = f % size
      · have hcl : claims (s.wpc m) = true := by
          cases hw : s.wpc m <;> rw [hw] at hh <;> simp [holding] at hh <;> rfl
        exact absurd (by rw [← hi, ← e, hh.2]) (hown hcl s.rd (Nat.le_refl _) hlt)
      · rw [if_neg hh]
    · rw [if_neg e]
      refine hrest j (fun k h1 h2 hk => ?_)
      by_cases ek : k = s.rd
      · subst ek; exact e (hk.symm.trans hi.symm)
      · exact hj k (by simp only [cleared]; omega) h2 hk
  · exact hown hh k (by simp only [cleared] at h1; omega) h2
  · simp only [cleared, if_true]; omega
  · intro j hj; simp at hj

theorem ord_decr {s : St α} {m f : Nat} (hz : size < W - 2) (hf : f < W - 2) (o : Ord size payload s m f) (h : s.rpc = .decr) :
    Ord size payload { s with len := (s.len + (W - 1)) % W, rd := (s.rd + 1) % W, rpc := .idle } m f := by
  have hl := o.len
  have hp := o.pos (by rw [h]; simp)
  have hlo := o.lo
  have hfull := o.full
  have hlog := o.log
  have hwin := o.win
  have hrest := o.rest
  have hown := o.own
  rw [h] at hl hlo hfull hlog hwin hrest hown
  simp only [cleared, viewed] at *
  rw [if_pos trivial] at hl
  have hrd : (s.rd + 1) % W = s.rd + 1 := Nat.mod_eq_of_lt (by unfold W at *; omega)
  have hlen : (s.len + (W - 1)) % W = s.len - 1 := by unfold W at *; omega
  rw [hrd, hlen]
  refine ⟨o.before, o.after, o.cur, o.wr, hlo, hwin, hfull, hrest, hown, o.buf, ?_, ?_, ?_, hlog⟩
  · simp only [cleared]; rw [if_neg (c := (RPc.idle = RPc.decr)) (by simp)]; omega
  · intro h; exact absurd rfl h
  · intro j hj; simp at hj

theorem ord_init : Ord size payload (init : St α) 0 0 := by
  refine ⟨by intro i hi; omega, fun _ _ => rfl, ⟨rfl, rfl⟩, by simp only [init]; unfold W; omega, Nat.le_refl _, Nat.zero_le _, ?_, ?_, ?_, ?_, rfl, ?_, ?_, ?_⟩
  · intro k _ h; omega
  · intro i _; rfl
  · intro h; cases h
  · intro ts h; cases h
  · intro h; exact absurd rfl h
  · intro i h; simp [init] at h
  · simp [init, viewed]

theorem ord_step {s s' : St α} {m f : Nat} (hs : size ≠ 0) (hz : size < W - 2) (o : Ord size payload s m f)
    (st : Step size payload s s') (ht : Turn s s') (hr : Room s s') (ha : s'.attempts < W - 2) :
    ∃ m' f', Ord size payload s' m' f' := by
  have hfa := o.f_le
  cases st with
  | callEmpty j hj hp =>
    have o' := o.starts hj (ht j hj (by rw [at_self]; simp))
    have hc := o'.cur
    rw [hj] at hc
    exact ⟨j, f, o'.move ⟨List.length_eq_zero_iff.1 hp, hc⟩ (by rw [hj]; rfl) rfl (by rw [hj]; simp) (by simp) (fun h => by cases h)⟩
  | call j hj hp =>
    have o' := o.starts hj (ht j hj (by rw [at_self]; simp))
    have hc := o'.cur
    rw [hj] at hc
    exact ⟨j, f, o'.move ⟨fun e => hp (by rw [e]; rfl), hc⟩ (by rw [hj]; rfl) rfl (by rw [hj]; simp) (by simp) (fun h => by cases h)⟩
  | add j hj _ =>
    obtain rfl := o.active (j := j) (by rw [hj]; simp) (by rw [hj]; simp) (by rw [hj]; simp)
    exact ⟨_, _, ord_add o hj ha⟩
  | addCrash j hj h0 => exact absurd h0 hs
  | loadEmpty j ts hj hlk =>
    obtain rfl := o.active (j := j) (by rw [hj]; simp) (by rw [hj]; simp) (by rw [hj]; simp)
    have hc := o.cur
    rw [hj] at hc
    refine ⟨_, _, o.move (p := .cas ts) hc (by rw [hj]; rfl) rfl (by rw [hj]; simp) (by simp) (fun _ k h1 h2 e => ?_)⟩
    have := (o.full k h1 h2).1
    rw [e, ← hc.2.1] at this
    unfold slot at hlk
    rw [hlk] at this
    unfold emptyL W at *
    simp only [St.at] at ha
    omega
  | loadBusy j ts hj hlk =>
    obtain rfl := o.active (j := j) (by rw [hj]; simp) (by rw [hj]; simp) (by rw [hj]; simp)
    rcases o.lock_cases (slot size ts) with ⟨k, h1, h2, h3⟩ | ⟨_, h2⟩
    · have := (o.full k h1 h2).1
      rw [h3, hlk] at this
      unfold busyL W at *
      simp only [St.at] at ha
      omega
    · rw [hlk, hj] at h2
      simp [holding] at h2
      exact absurd h2 (by decide)
  | loadFull j ts hj h1 h2 =>
    have := hr j (at_self _ _ _)
    rw [hj] at this; cases this
  | casOk j ts hj hlk =>
    obtain rfl := o.active (j := j) (by rw [hj]; simp) (by rw [hj]; simp) (by rw [hj]; simp)
    exact ⟨_, _, ord_cas o hj⟩
  | casFail j ts hj hlk =>
    obtain rfl := o.active (j := j) (by rw [hj]; simp) (by rw [hj]; simp) (by rw [hj]; simp)
    have hc := o.cur
    have hown := o.own
    rw [hj] at hc hown
    have := o.rest (f % size) (hown rfl)
    rw [hj] at this
    unfold slot at hlk
    rw [hc.2.1] at hlk
    exact absurd (by simpa [holding] using this) hlk
  | copy j ts hj =>
    obtain rfl := o.active (j := j) (by rw [hj]; simp) (by rw [hj]; simp) (by rw [hj]; simp)
    exact ⟨_, _, ord_copy o hj⟩
  | store j ts hj =>
    obtain rfl := o.active (j := j) (by rw [hj]; simp) (by rw [hj]; simp) (by rw [hj]; simp)
    exact ⟨_, _, ord_store hs o hj⟩
  | incr j hj =>
    obtain rfl := o.active (j := j) (by rw [hj]; simp) (by rw [hj]; simp) (by rw [hj]; simp)
    exact ⟨_, _, ord_incr hz o hj⟩
  | chkFull j hj _ =>
    obtain rfl := o.active (j := j) (by rw [hj]; simp) (by rw [hj]; simp) (by rw [hj]; simp)
    have hc := o.cur
    rw [hj] at hc; exact hc.elim
  | chkRetry j hj _ =>
    obtain rfl := o.active (j := j) (by rw [hj]; simp) (by rw [hj]; simp) (by rw [hj]; simp)
    have hc := o.cur
    rw [hj] at hc; exact hc.elim
  | nextNone _ _ => exact ⟨m, f, o⟩
  | nextCrash _ _ h0 => exact absurd h0 hs
  | next h1 h2 _ =>
    refine ⟨m, f, ord_reader o (by rw [h1]; rfl) (by rw [h1]; rfl) (by rw [h1]; simp) (fun _ => by omega) (fun i hi => ?_)⟩
    simp at hi; rw [← hi]; rfl
  | spinWait _ _ _ => exact ⟨m, f, o⟩
  | spinEnd i h1 _ _ =>
    have h5 := o.slot_ i (by simp [h1])
    refine ⟨m, f, ord_reader o (by rw [h1]; rfl) (by rw [h1]; rfl) (by rw [h1]; simp) (fun _ => o.pos (by rw [h1]; simp)) (fun j hj => ?_)⟩
    simp at hj; rw [← hj]; exact h5
  | view i h1 => exact ⟨m, f, ord_view o h1⟩
  | clear i h1 => exact ⟨m, f, ord_clear o h1⟩
  | decr h1 => exact ⟨m, f, ord_decr hz (by simp only at ha; omega) o h1⟩

theorem attempts_mono {s s' : St α} (st : Step size payload s s') : s.attempts ≤ s'.attempts := by
  cases st <;> simp [St.at]

theorem ord_reach {s : St α} (hs : size ≠ 0) (hz : size < W - 2)
    (r : Only (fun s s' => Turn s s' ∧ Room s s') size payload s) (ha : s.attempts < W - 2) :
    ∃ m f, Ord size payload s m f := by
  induction r with
  | init => exact ⟨0, 0, ord_init⟩
  | step _ st ok ih =>
    obtain ⟨m, f, o⟩ := ih (Nat.lt_of_le_of_lt (attempts_mono st) ha)
    exact ord_step hs hz o st ok.1 ok.2 ha

/-- A beginning of the sequence of payloads is the sequence of the first calls. -/
theorem pay_take (M : Nat) : ∀ v, ∃ m, (pay payload M).take v = pay payload m := by
  induction M with
  | zero => intro v; exact ⟨0, by simp [pay]⟩
  | succ M ih =>
    intro v
    by_cases h : payload M = []
    · rw [pay_succ_nil h]; exact ih v
    · by_cases hv : v ≤ (pay payload M).length
      · rw [pay_succ_ne h, List.take_append_of_le_length hv]; exact ih v
      · exact ⟨M + 1, List.take_of_length_le (by rw [pay_succ_ne h]; simp; omega)⟩

/-- Without full slots only empty payloads go to the drop function. -/
theorem no_drop {s : St α} (r : Only (fun s s' => Turn s s' ∧ Room s s') size payload s) :
    ∀ j, s.wpc j ≠ .chk ∧ (s.wpc j = .dropped → payload j = []) := by
  induction r with
  | init => intro j; simp [init]
  | @step s s' _ st ok ih =>
    intro j
    refine ⟨fun h => (ih j).1 (ok.2 j h), fun h => ?_⟩
    have key : ∀ (u : St α) k p, u.wpc = s.wpc → (p = .dropped → payload k = []) → (u.at k p).wpc j = .dropped → payload j = [] := by
      intro u k p hu hp hd
      by_cases e : j = k
      · subst e; rw [at_self] at hd; exact hp hd
      · rw [at_other _ _ e, hu] at hd; exact (ih j).2 hd
    have chk : ∀ k, s.wpc k ≠ .chk := fun k => (ih k).1
    cases st with
    | callEmpty k h1 h2 => exact key _ _ _ rfl (fun _ => List.length_eq_zero_iff.1 h2) h
    | chkFull k h1 h2 => exact absurd h1 (chk k)
    | call | add | loadEmpty | loadBusy | loadFull | casOk | casFail | copy | store | incr | chkRetry =>
      exact key _ _ _ (by rfl) (by simp) h
    | _ => exact (ih j).2 h

/-! ## Runs -/

/-- Turn and Room for a step of a call that is under way. -/
theorem tr_at {s u : St α} {j : Nat} {p : WPc} (hu : u.wpc = s.wpc) (h1 : s.wpc j ≠ .new) (h2 : p ≠ .chk) :
    Turn s (u.at j p) ∧ Room s (u.at j p) := by
  constructor
  · intro k h3 h4
    by_cases e : k = j
    · subst e; exact absurd h3 h1
    · rw [at_other _ _ e, hu] at h4; exact absurd h3 h4
  · intro k h3
    by_cases e : k = j
    · subst e; rw [at_self] at h3; exact absurd h3 h2
    · rw [at_other _ _ e, hu] at h3; exact h3

theorem tr_same {s u : St α} (hu : u.wpc = s.wpc) : Turn s u ∧ Room s u :=
  ⟨fun j h1 h2 => absurd (hu ▸ h1) h2, fun j h => hu ▸ h⟩

theorem tr_call {s : St α} {j : Nat} {p : WPc} (h2 : p ≠ .chk)
    (hd : ∀ i, i < j → s.wpc i = .accepted ∨ s.wpc i = .dropped) : Turn s (s.at j p) ∧ Room s (s.at j p) := by
  constructor
  · intro k h3 h4
    by_cases e : k = j
    · subst e; exact hd
    · rw [at_other _ _ e] at h4; exact absurd h3 h4
  · intro k h3
    by_cases e : k = j
    · subst e; rw [at_self] at h3; exact absurd h3 h2
    · rw [at_other _ _ e] at h3; exact h3

variable {ok : St α → St α → Prop} {s : St α}

/-- The rest of a call of `Write` that takes a ticket and finds its slot empty. -/
theorem only_add (hok : ∀ s s', Turn s s' ∧ Room s s' → ok s s') (hs : size ≠ 0) (r : Only ok size payload s) {j ts i : Nat}
    (h0 : s.wpc j = .add) (ht : (s.wr + 1) % W = ts) (hi : slot size ts = i) (he : s.lock i = emptyL) :
    Only ok size payload { s with
      wr := ts, attempts := s.attempts + 1, len := (s.len + 1) % W
      lock := fun x => if x = i then ts else s.lock x
      buf := fun x => if x = i then payload j else s.buf x
      wpc := fun x => if x = j then .accepted else s.wpc x } := by
  subst ht hi
  have r2 := r.step (.add _ j h0 hs) (hok _ _ (tr_at rfl (by rw [h0]; simp) (by simp)))
  have r3 := r2.step (.loadEmpty _ j ((s.wr + 1) % W) (by simp [St.at]) (by simpa [St.at] using he))
    (hok _ _ (tr_at rfl (by simp [St.at]) (by simp)))
  have r4 := r3.step (.casOk _ j ((s.wr + 1) % W) (by simp [St.at]) (by simpa [St.at] using he))
    (hok _ _ (tr_at rfl (by simp [St.at]) (by simp)))
  have r5 := r4.step (.copy _ j ((s.wr + 1) % W) (by simp [St.at])) (hok _ _ (tr_at rfl (by simp [St.at]) (by simp)))
  have r6 := r5.step (.store _ j ((s.wr + 1) % W) (by simp [St.at])) (hok _ _ (tr_at rfl (by simp [St.at]) (by simp)))
  have r7 := r6.step (.incr _ j (by simp [St.at])) (hok _ _ (tr_at rfl (by simp [St.at]) (by simp)))
  convert r7 using 1
  simp only [St.at, St.mk.injEq, true_and, and_true]
  exact ⟨by funext x; grind, by funext x; grind⟩

/-- A whole call of `Write` that finds its first slot empty. -/
theorem only_write (hok : ∀ s s', Turn s s' ∧ Room s s' → ok s s') (hs : size ≠ 0) (r : Only ok size payload s) {j ts i : Nat}
    (hp : (payload j).length ≠ 0) (h0 : s.wpc j = .new) (hd : ∀ i, i < j → s.wpc i = .accepted ∨ s.wpc i = .dropped)
    (ht : (s.wr + 1) % W = ts) (hi : slot size ts = i) (he : s.lock i = emptyL) :
    Only ok size payload { s with
      wr := ts, attempts := s.attempts + 1, len := (s.len + 1) % W
      lock := fun x => if x = i then ts else s.lock x
      buf := fun x => if x = i then payload j else s.buf x
      wpc := fun x => if x = j then .accepted else s.wpc x } := by
  have r1 := r.step (.call _ j h0 hp) (hok _ _ (tr_call (by simp) hd))
  have r2 := only_add hok hs r1 (j := j) (ts := ts) (i := i) (by simp [St.at]) (by simpa [St.at] using ht) hi (by simpa [St.at] using he)
  convert r2 using 1
  simp only [St.at, St.mk.injEq, true_and, and_true]
  funext x; grind

/-- A whole call of `Next` that finds its slot full, up to and including the view. -/
theorem only_view (hok : ∀ s s', Turn s s' ∧ Room s s' → ok s s') (hs : size ≠ 0) (r : Only ok size payload s) {i : Nat}
    (h0 : s.rpc = .idle) (hl : s.len ≠ 0) (hi : slot size s.rd = i) (h1 : s.lock i ≠ emptyL) (h2 : s.lock i ≠ busyL) :
    Only ok size payload { s with log := s.log ++ [s.buf i], rpc := .clear i } := by
  subst hi
  have r1 := r.step (.next _ h0 hl hs) (hok _ _ (tr_same rfl))
  have r2 := r1.step (.spinEnd _ _ rfl h1 h2) (hok _ _ (tr_same rfl))
  exact r2.step (.view _ _ rfl) (hok _ _ (tr_same rfl))

/-- A whole call of `Next` that finds its slot full. -/
theorem only_next (hok : ∀ s s', Turn s s' ∧ Room s s' → ok s s') (hs : size ≠ 0) (r : Only ok size payload s) {i : Nat}
    (h0 : s.rpc = .idle) (hl : s.len ≠ 0) (hi : slot size s.rd = i) (h1 : s.lock i ≠ emptyL) (h2 : s.lock i ≠ busyL) :
    Only ok size payload { s with
      rd := (s.rd + 1) % W, len := (s.len + (W - 1)) % W
      lock := fun x => if x = i then emptyL else s.lock x
      log := s.log ++ [s.buf i]
      rpc := .idle } := by
  have r3 := only_view hok hs r h0 hl hi h1 h2
  have r4 := r3.step (.clear _ _ rfl) (hok _ _ (tr_same rfl))
  exact r4.step (.decr _ rfl) (hok _ _ (tr_same rfl))

end Verif.DecOrder
