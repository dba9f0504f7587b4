import Verif.DecAlone.Spec
import Verif.Decouple.Wrap
/-!
# Lemmas for C124
-/
namespace Verif.DecAlone
open Verif.Decouple

variable {α : Type} {size : Nat} {payload : Nat → List α} {s t u : St α} {j : Nat}

theorem Alone.trans (h : Alone size payload j s t) (g : Alone size payload j t u) : Alone size payload j s u := by
  induction h with
  | refl => exact g
  | head a _ ih => exact .head a (ih g)

@[simp] theorem at_same (s : St α) (j : Nat) (p : WPc) : (s.at j p).wpc j = p := by simp [St.at]

theorem own {s : St α} {p q : WPc} (hq : s.wpc j = q) (hp : p ≠ q) (h : Step size payload s t) (ht : t.wpc j = p) :
    Own size payload j s t := ⟨h, by rw [ht, hq]; exact hp⟩

/-- A slot where a call on its own ends. -/
def Good (size : Nat) (s : St α) (i : Nat) : Prop :=
  s.lock i = emptyL ∨ s.len = size ∧ s.lock i ≠ emptyL ∧ s.lock i ≠ busyL

theorem from_incr (h : s.wpc j = .incr) : Returns size payload j 0 s :=
  ⟨_, .head (own h (by simp) (.incr _ j h) (at_same _ _ _)) (.refl _), .inl (at_same _ _ _), by simp [St.at]⟩

theorem Returns.head {n m : Nat} (h : Own size payload j s t) (g : Returns size payload j m t) (ha : t.attempts + m ≤ s.attempts + n) :
    Returns size payload j n s := by
  obtain ⟨u, h1, h2, h3⟩ := g
  exact ⟨u, .head h h1, h2, by omega⟩

theorem from_store {ts : Nat} (h : s.wpc j = .store ts) : Returns size payload j 0 s :=
  .head (own h (by simp) (.store _ j ts h) (at_same _ _ _)) (from_incr (at_same _ _ _)) (by simp [St.at])

theorem from_copy {ts : Nat} (h : s.wpc j = .copy ts) : Returns size payload j 0 s :=
  .head (own h (by simp) (.copy _ j ts h) (at_same _ _ _)) (from_store (at_same _ _ _)) (by simp [St.at])

theorem from_cas_ok {ts : Nat} (h : s.wpc j = .cas ts) (he : s.lock (slot size ts) = emptyL) : Returns size payload j 0 s :=
  .head (own h (by simp) (.casOk _ j ts h he) (at_same _ _ _)) (from_copy (at_same _ _ _)) (by simp [St.at])

theorem from_load_ok {ts : Nat} (h : s.wpc j = .load ts) (he : s.lock (slot size ts) = emptyL) : Returns size payload j 0 s :=
  .head (own h (by simp) (.loadEmpty _ j ts h he) (at_same _ _ _)) (from_cas_ok (at_same _ _ _) he) (by simp [St.at])

theorem from_chk_full (h : s.wpc j = .chk) (he : s.len = size) : Returns size payload j 0 s :=
  ⟨_, .head (own h (by simp) (.chkFull _ j h he) (at_same _ _ _)) (.refl _), .inr (at_same _ _ _), by simp [St.at]⟩

/-- From the top of the loop, `d` tickets before a good slot. -/
theorem from_add (hs : size ≠ 0) : ∀ (d : Nat) (s : St α), s.wpc j = .add → s.wr = (s.attempts + (W - 1)) % W →
    s.attempts + d + 1 < W → Good size s (slot size (s.attempts + d)) → Returns size payload j (d + 1) s := by
  intro d
  induction d with
  | zero =>
    intro s h hw ha hg
    have ht : (s.wr + 1) % W = s.attempts := by rw [hw]; exact att_step (by omega)
    have st := Step.add (size := size) (payload := payload) s j h hs
    rw [ht] at st
    refine .head (m := 0) (own h (by simp) st (at_same _ _ _)) ?_ (by simp [St.at])
    rcases hg with hg | ⟨h1, h2, h3⟩
    · exact from_load_ok (at_same _ _ _) hg
    · exact .head (own (at_same _ _ _) (by simp) (.loadFull _ j s.attempts (at_same _ _ _) h2 h3) (at_same _ _ _))
        (from_chk_full (at_same _ _ _) h1) (by simp [St.at])
  | succ d ih =>
    intro s h hw ha hg
    have ht : (s.wr + 1) % W = s.attempts := by rw [hw]; exact att_step (by omega)
    have st := Step.add (size := size) (payload := payload) s j h hs
    rw [ht] at st
    have next : ∀ t : St α, t.wpc j = .add → t.wr = s.attempts → t.attempts = s.attempts + 1 → t.lock = s.lock → t.len = s.len →
        Returns size payload j (d + 1) t := fun t g1 g2 g3 g4 g5 => by
      refine ih t g1 ?_ (by omega) ?_
      · rw [g2, g3]; unfold W at *; omega
      · rw [g3]; unfold Good; rw [g4, g5, show s.attempts + 1 + d = s.attempts + (d + 1) by omega]; exact hg
    refine .head (m := d + 1) (own h (by simp) st (at_same _ _ _)) ?_ (by simp [St.at]; omega)
    by_cases he : s.lock (slot size s.attempts) = emptyL
    · obtain ⟨u, h1, h2, h3⟩ := from_load_ok (size := size) (payload := payload) (j := j)
        (s := ({ s with wr := s.attempts, attempts := s.attempts + 1 } : St α).at j (.load s.attempts)) (at_same _ _ _) he
      exact ⟨u, h1, h2, by omega⟩
    by_cases hb : s.lock (slot size s.attempts) = busyL
    · exact .head (own (at_same _ _ _) (by simp) (.loadBusy _ j s.attempts (at_same _ _ _) hb) (at_same _ _ _))
        (next _ (at_same _ _ _) rfl rfl rfl rfl) (by simp [St.at])
    refine .head (m := d + 1) (own (at_same _ _ _) (by simp) (.loadFull _ j s.attempts (at_same _ _ _) he hb) (at_same _ _ _)) ?_ (by simp [St.at])
    by_cases hl : s.len = size
    · obtain ⟨u, h1, h2, h3⟩ := from_chk_full (size := size) (payload := payload) (j := j)
        (s := (({ s with wr := s.attempts, attempts := s.attempts + 1 } : St α).at j (.load s.attempts)).at j .chk) (at_same _ _ _) hl
      exact ⟨u, h1, h2, by omega⟩
    · exact .head (own (at_same _ _ _) (by simp) (.chkRetry _ j (at_same _ _ _) hl) (at_same _ _ _))
        (next _ (at_same _ _ _) rfl rfl rfl rfl) (by simp [St.at])

theorem reach_slot (n : Nat) {i : Nat} (hi : i < size) : ∃ d, d < size ∧ slot size (n + d) = i := by
  have hpos : 0 < size := by omega
  have hm := Nat.mod_lt n hpos
  refine ⟨(i + (size - n % size)) % size, Nat.mod_lt _ hpos, ?_⟩
  have e : n % size + (i + (size - n % size)) = i + size := by omega
  unfold slot
  rw [Nat.add_mod_mod, ← Nat.mod_add_mod n, e, Nat.add_mod_right, Nat.mod_eq_of_lt hi]

theorem from_add_open (hs : size ≠ 0) (h : s.wpc j = .add) (hw : s.wr = (s.attempts + (W - 1)) % W)
    (ha : s.attempts + size < W) (ho : Open size s) : Returns size payload j size s := by
  have key : ∀ i, i < size → Good size s i → Returns size payload j size s := fun i hi hg => by
    obtain ⟨d, hd, e⟩ := reach_slot (size := size) s.attempts hi
    obtain ⟨u, h1, h2, h3⟩ := from_add (payload := payload) (j := j) hs d s h hw (by omega) (by rw [e]; exact hg)
    exact ⟨u, h1, h2, by omega⟩
  rcases ho with ⟨i, hi, g⟩ | ⟨hl, i, hi, g⟩
  · exact key i hi (.inl g)
  · exact key i hi (.inr ⟨hl, g⟩)

/-- A call that is shut out goes round for ever. -/
theorem shut_step (hs : size ≠ 0) (ho : ¬ Open size s) (hr : s.wpc j = .add ∨ ∃ ts, s.wpc j = .load ts ∨ s.wpc j = .chk ∧ s.len ≠ size)
    (h : Own size payload j s t) : ¬ Open size t ∧
      (t.wpc j = .add ∨ ∃ ts, t.wpc j = .load ts ∨ t.wpc j = .chk ∧ t.len ≠ size) := by
  obtain ⟨st, hne⟩ := h
  have hlt : ∀ ts, slot size ts < size := fun ts => Nat.mod_lt _ (Nat.pos_of_ne_zero hs)
  have hempty : ∀ ts, s.lock (slot size ts) ≠ emptyL := fun ts e => ho (.inl ⟨_, hlt ts, e⟩)
  have other : ∀ (a : St α) {k : Nat} {p : WPc}, a.wpc = s.wpc → (a.at k p).wpc j ≠ s.wpc j → k = j := fun a k p e g => by
    by_contra hc
    exact g (by simp [St.at, e, Ne.symm hc])
  cases st with
  | callEmpty k a b => obtain rfl := other s rfl hne; rw [a] at hr; simp at hr
  | call k a b => obtain rfl := other s rfl hne; rw [a] at hr; simp at hr
  | add k a b => obtain rfl := other { s with wr := _, attempts := _ } rfl hne; exact ⟨ho, .inr ⟨_, .inl (at_same _ _ _)⟩⟩
  | addCrash k a b => exact absurd b hs
  | loadEmpty k ts a b => exact absurd b (hempty ts)
  | loadBusy k ts a b => obtain rfl := other s rfl hne; exact ⟨ho, .inl (at_same _ _ _)⟩
  | loadFull k ts a b c =>
    obtain rfl := other s rfl hne
    exact ⟨ho, .inr ⟨0, .inr ⟨at_same _ _ _, fun e => ho (.inr ⟨e, _, hlt ts, b, c⟩)⟩⟩⟩
  | casOk k ts a b => exact absurd b (hempty ts)
  | casFail k ts a b => obtain rfl := other s rfl hne; rw [a] at hr; simp at hr
  | copy k ts a => obtain rfl := other { s with buf := _ } rfl hne; rw [a] at hr; simp at hr
  | store k ts a => obtain rfl := other { s with lock := _ } rfl hne; rw [a] at hr; simp at hr
  | incr k a => obtain rfl := other { s with len := _ } rfl hne; rw [a] at hr; simp at hr
  | chkFull k a b =>
    obtain rfl := other s rfl hne
    rw [a] at hr
    simp [b] at hr
  | chkRetry k a b => obtain rfl := other s rfl hne; exact ⟨ho, .inl (at_same _ _ _)⟩
  | nextNone a b => exact absurd rfl hne
  | nextCrash a b c => exact absurd rfl hne
  | next a b c => exact absurd rfl hne
  | spinWait i a b => exact absurd rfl hne
  | spinEnd i a b c => exact absurd rfl hne
  | view i a => exact absurd rfl hne
  | clear i a => exact absurd rfl hne
  | decr a => exact absurd rfl hne

theorem shut (hs : size ≠ 0) (h : Alone size payload j s t) (ho : ¬ Open size s)
    (hr : s.wpc j = .add ∨ ∃ ts, s.wpc j = .load ts ∨ s.wpc j = .chk ∧ s.len ≠ size) :
    ¬ Over t j ∧ ∃ u, Own size payload j t u := by
  induction h with
  | @refl s =>
    have hlt : ∀ ts, slot size ts < size := fun ts => Nat.mod_lt _ (Nat.pos_of_ne_zero hs)
    rcases hr with hr | ⟨ts, hr | ⟨hr, hl⟩⟩
    · exact ⟨by simp [Over, hr], _, own hr (by simp) (.add _ j hr hs) (at_same _ _ _)⟩
    · refine ⟨by simp [Over, hr], ?_⟩
      by_cases he : s.lock (slot size ts) = emptyL
      · exact absurd (.inl ⟨_, hlt ts, he⟩) ho
      by_cases hb : s.lock (slot size ts) = busyL
      · exact ⟨_, own hr (by simp) (.loadBusy _ j ts hr hb) (at_same _ _ _)⟩
      · exact ⟨_, own hr (by simp) (.loadFull _ j ts hr he hb) (at_same _ _ _)⟩
    · exact ⟨by simp [Over, hr], _, own hr (by simp) (.chkRetry _ j hr hl) (at_same _ _ _)⟩
  | head a _ ih =>
    obtain ⟨g1, g2⟩ := shut_step hs ho hr a
    exact ih g1 g2

/-- The step of call `j`. -/
def stepOf (size : Nat) (payload : Nat → List α) (j : Nat) (s : St α) : St α :=
  match s.wpc j with
  | .new => if (payload j).length = 0 then s.at j .dropped else s.at j .add
  | .add => { s with wr := (s.wr + 1) % W, attempts := s.attempts + 1 }.at j (.load ((s.wr + 1) % W))
  | .load ts => if s.lock (slot size ts) = emptyL then s.at j (.cas ts) else if s.lock (slot size ts) = busyL then s.at j .add else s.at j .chk
  | .cas ts => if s.lock (slot size ts) = emptyL then
      { s with lock := fun i => if i = slot size ts then busyL else s.lock i }.at j (.copy ts) else s.at j .add
  | .copy ts => { s with buf := fun i => if i = slot size ts then payload j else s.buf i }.at j (.store ts)
  | .store ts => { s with lock := fun i => if i = slot size ts then ts else s.lock i }.at j .incr
  | .incr => { s with len := (s.len + 1) % W }.at j .accepted
  | .chk => if s.len = size then s.at j .dropped else s.at j .add
  | _ => s

theorem own_eq (h : Own size payload j s t) : t = stepOf size payload j s := by
  obtain ⟨st, hne⟩ := h
  have hbe : busyL ≠ emptyL := by decide
  have other : ∀ (a : St α) {k : Nat} {p : WPc}, a.wpc = s.wpc → (a.at k p).wpc j ≠ s.wpc j → k = j := fun a k p e g => by
    by_contra hc
    exact g (by simp [St.at, e, Ne.symm hc])
  cases st with
  | callEmpty k a b => obtain rfl := other s rfl hne; simp [stepOf, a, b]
  | call k a b => obtain rfl := other s rfl hne; simp [stepOf, a, b]
  | add k a b => obtain rfl := other { s with wr := _, attempts := _ } rfl hne; simp [stepOf, a]
  | addCrash k a b => exact absurd rfl hne
  | loadEmpty k ts a b => obtain rfl := other s rfl hne; simp [stepOf, a, b]
  | loadBusy k ts a b => obtain rfl := other s rfl hne; simp [stepOf, a, b, hbe]
  | loadFull k ts a b c => obtain rfl := other s rfl hne; simp [stepOf, a, b, c]
  | casOk k ts a b => obtain rfl := other { s with lock := _ } rfl hne; simp [stepOf, a, b]
  | casFail k ts a b => obtain rfl := other s rfl hne; simp [stepOf, a, b]
  | copy k ts a => obtain rfl := other { s with buf := _ } rfl hne; simp [stepOf, a]
  | store k ts a => obtain rfl := other { s with lock := _ } rfl hne; simp [stepOf, a]
  | incr k a => obtain rfl := other { s with len := _ } rfl hne; simp [stepOf, a]
  | chkFull k a b => obtain rfl := other s rfl hne; simp [stepOf, a, b]
  | chkRetry k a b => obtain rfl := other s rfl hne; simp [stepOf, a, b]
  | _ => exact absurd rfl hne

/-- A locked slot has a writer that locked it. -/
theorem busy_held (r : Reach size payload s) (ha : s.attempts < W - 2) :
    ∀ i, s.lock i = busyL → ∃ j ts, (s.wpc j).holds = some ts ∧ slot size ts = i := by
  have hne : emptyL ≠ busyL := by decide
  induction r with
  | init => intro i h; exact absurd h (by simp [init]; exact hne)
  | @step s s' r st ih =>
    have ha' := Nat.lt_of_le_of_lt (Decouple.attempts_mono st) ha
    have ih := ih ha'
    obtain ⟨own, sl, js, n⟩ := inv_reach r ha'
    have hb : ∀ ts, ts < s.attempts → ts ≠ busyL := fun ts h e => by
      rw [e] at h; unfold busyL at h; unfold W at *; omega
    have keep : ∀ (a : St α) (k : Nat) (p : WPc), a.wpc = s.wpc → (s.wpc k).holds = none → ∀ i,
        (∃ j ts, (s.wpc j).holds = some ts ∧ slot size ts = i) → ∃ j ts, ((a.at k p).wpc j).holds = some ts ∧ slot size ts = i := by
      rintro a k p e h i ⟨j, ts, h1, h2⟩
      refine ⟨j, ts, ?_, h2⟩
      have : j ≠ k := by rintro rfl; rw [h] at h1; cases h1
      simp [St.at, this, e, h1]
    cases st with
    | callEmpty k a b => exact fun i h => keep s k _ rfl (by rw [a]; rfl) i (ih i h)
    | call k a b => exact fun i h => keep s k _ rfl (by rw [a]; rfl) i (ih i h)
    | add k a b => exact fun i h => keep _ k _ rfl (by rw [a]; rfl) i (ih i h)
    | addCrash k a b => exact ih
    | loadEmpty k ts a b => exact fun i h => keep s k _ rfl (by rw [a]; rfl) i (ih i h)
    | loadBusy k ts a b => exact fun i h => keep s k _ rfl (by rw [a]; rfl) i (ih i h)
    | loadFull k ts a b c => exact fun i h => keep s k _ rfl (by rw [a]; rfl) i (ih i h)
    | casOk k ts a b =>
      intro i h
      simp only [St.at] at h
      by_cases e : i = slot size ts
      · exact ⟨k, ts, by simp [St.at, WPc.holds], e.symm⟩
      · rw [if_neg e] at h
        exact keep _ k _ rfl (by rw [a]; rfl) i (ih i h)
    | casFail k ts a b => exact fun i h => keep s k _ rfl (by rw [a]; rfl) i (ih i h)
    | copy k ts a =>
      intro i h
      obtain ⟨j, ts', h1, h2⟩ := ih i h
      by_cases e : j = k
      · subst e
        rw [a] at h1
        cases h1
        exact ⟨j, ts, by simp [St.at, WPc.holds], h2⟩
      · exact ⟨j, ts', by simp [St.at, e, h1], h2⟩
    | store k ts a =>
      intro i h
      simp only [St.at] at h
      by_cases e : i = slot size ts
      · rw [if_pos e] at h
        exact absurd h (hb ts (n.tick k ts (by rw [a]; rfl)))
      · rw [if_neg e] at h
        obtain ⟨j, ts', h1, h2⟩ := ih i h
        have : j ≠ k := by
          rintro rfl
          rw [a] at h1
          cases h1
          exact e h2.symm
        exact ⟨j, ts', by simp [St.at, this, h1], h2⟩
    | incr k a => exact fun i h => keep _ k _ rfl (by rw [a]; rfl) i (ih i h)
    | chkFull k a b => exact fun i h => keep s k _ rfl (by rw [a]; rfl) i (ih i h)
    | chkRetry k a b => exact fun i h => keep s k _ rfl (by rw [a]; rfl) i (ih i h)
    | nextNone a b => exact ih
    | nextCrash a b c => exact ih
    | next a b c => exact ih
    | spinWait i a b => exact ih
    | spinEnd i a b c => exact ih
    | view i a => exact ih
    | clear i a =>
      intro x h
      simp only at h
      by_cases e : x = i
      · rw [if_pos e] at h; exact absurd h hne
      · rw [if_neg e] at h; exact ih x h
    | decr a => exact ih

end Verif.DecAlone
