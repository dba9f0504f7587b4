import Verif.SliceParts.Spec
import Verif.Slicex.Lemmas
/-!
# Where the pieces lie, and where the calls write
-/
namespace Verif.SliceParts
open Verif.Go Verif.Slicex
variable {T : Type} [Inhabited T]

/-! ## The pieces -/

/-- `l` are the windows of `s` between consecutive points from `a` to `b`. -/
inductive Wins (s : Sl) : Nat → List Sl → Nat → Prop where
  | nil (a) : Wins s a [] a
  | cons {a m b l} : a ≤ m → m ≤ s.len → Wins s m l b →
      Wins s a (⟨s.arr, s.off + a, m - a, s.cap - a⟩ :: l) b

theorem Wins.append {s : Sl} {a b c l l'} (w : Wins s a l b) (w' : Wins s b l' c) : Wins s a (l ++ l') c := by
  induction w with
  | nil => exact w'
  | cons h1 h2 _ ih => exact .cons h1 h2 (ih w')

theorem Wins.le {s : Sl} {a b l} (w : Wins s a l b) : a ≤ b := by
  induction w with
  | nil => exact Nat.le_refl _
  | cons h1 _ _ ih => exact Nat.le_trans h1 ih

theorem splitLoop_wins {s : Sl} (hle : s.len ≤ s.cap) (ns : List Int) :
    ∀ (e : Nat) (r : List Sl), e ≤ s.len → (∀ n ∈ ns, 0 ≤ n) →
    (∀ n ∈ ns, n + s.len < 2 ^ 63) ∨ e + ns.sum < 2 ^ 63 →
    ∃ (l : List Sl) (e' : Nat), splitLoop s ns e r = .ret (r ++ l, (e' : Int)) ∧ e' ≤ s.len ∧ Wins s e l e' := by
  induction ns with
  | nil => intro e r he _ _; exact ⟨[], e, by simp [splitLoop], he, .nil _⟩
  | cons n ns ih =>
    intro e r he hn hs
    have h0 := hn n (by simp)
    have hpos : 0 ≤ ns.sum := sum_nonneg' (fun m hm => hn m (by simp [hm]))
    rw [List.sum_cons] at hs
    have h1 : (e : Int) + n < 2 ^ 63 := by
      rcases hs with hs | hs
      · have := hs n (by simp); omega
      · omega
    simp only [splitLoop]
    have hw : wrap64 ((e : Int) + n) = e + n := wrap64_of_in (by unfold InInt64; omega)
    rw [hw, clamp_eq]
    have hb : bound ((e : Int) + n) s.len = min (e + n.toNat) s.len := by unfold bound; omega
    rw [hb]
    generalize hE : min (e + n.toNat) s.len = E
    rw [if_neg (by omega), reslice_ret (by omega) (by omega) (by omega), Outcome.bind_ret]
    obtain ⟨l, e', h2, h3, h4⟩ := ih E (r ++ [⟨s.arr, s.off + (e : Int).toNat, ((E : Int) - e).toNat, s.cap - (e : Int).toNat⟩])
      (by omega) (fun m hm => hn m (by simp [hm]))
      (hs.imp (fun hs m hm => hs m (by simp [hm])) (fun hs => by omega))
    refine ⟨⟨s.arr, s.off + e, E - e, s.cap - e⟩ :: l, e', ?_, h3, .cons (by omega) (by omega) h4⟩
    rw [h2, show ((E : Int) - (e : Int)).toNat = E - e by omega]
    simp

theorem split_wins {s : Sl} (hle : s.len ≤ s.cap) {ns : List Int} (hn : ∀ n ∈ ns, 0 ≤ n)
    (hs : (∀ n ∈ ns, n + s.len < 2 ^ 63) ∨ ns.sum < 2 ^ 63) :
    ∃ r, split s ns = .ret r ∧ Wins s 0 r s.len := by
  obtain ⟨l, e, h1, h2, h3⟩ := splitLoop_wins hle ns 0 [] (Nat.zero_le _) hn (hs.imp_right (fun h => by simpa using h))
  have h1' : splitLoop s ns 0 [] = .ret (l, (e : Int)) := by simpa using h1
  by_cases he : e < s.len
  · refine ⟨l ++ [⟨s.arr, s.off + e, s.len - e, s.cap - e⟩], ?_, h3.append (.cons (by omega) (Nat.le_refl _) (.nil _))⟩
    simp only [split, h1', Outcome.bind_ret]
    rw [if_pos (by omega), reslice_ret (by omega) (by omega) (by omega)]
    simp only [Outcome.bind_ret, Int.toNat_natCast]
    rw [show ((s.len : Int) - (e : Int)).toNat = s.len - e by omega]
  · have : e = s.len := by omega
    subst this
    refine ⟨l, ?_, h3⟩
    simp only [split, h1', Outcome.bind_ret]
    rw [if_neg (by omega)]

theorem batch_split {s : Sl} (n : Int) : ∃ ns : List Int, batch s n = split s ns ∧ (∀ m ∈ ns, 0 ≤ m) ∧ ns.sum ≤ s.len := by
  generalize hN : (max n 1).toNat = N
  have hNN : (if n ≤ 0 then (1 : Int) else n) = (N : Int) := by split <;> omega
  have hpos : 0 < N := by omega
  have hdiv : ((s.len : Int).tdiv (N : Int)).toNat = s.len / N := by
    rw [Int.tdiv_eq_ediv_of_nonneg (by omega), ← Int.natCast_ediv, Int.toNat_natCast]
  have hsum : ∀ k : Nat, (List.replicate k (N : Int)).sum = ((k * N : Nat) : Int) := by
    intro k
    induction k with
    | zero => simp
    | succ k ih => rw [List.replicate_succ, List.sum_cons, ih]; push_cast; ring
  have hmul : s.len / N * N ≤ s.len := Nat.div_mul_le_self _ _
  refine ⟨List.replicate (s.len / N) (N : Int), by simp only [batch, hNN, hdiv], ?_, by rw [hsum]; omega⟩
  intro m hm
  rw [List.eq_of_mem_replicate hm]; omega

theorem Wins.get {s : Sl} {a b l} (w : Wins s a l b) {i : Nat} {p : Sl} (hp : l[i]? = some p) :
    p.arr = s.arr ∧ s.off + a ≤ p.off ∧ p.off + p.len ≤ s.off + s.len ∧
      (s.len ≤ s.cap → p.off + p.cap = s.off + s.cap) := by
  induction w generalizing i with
  | nil => simp at hp
  | cons h1 h2 _ ih =>
    cases i with
    | zero => simp at hp; subst hp; exact ⟨rfl, Nat.le_refl _, by simp only; omega, fun _ => by simp only; omega⟩
    | succ i =>
      obtain ⟨q1, q2, q3, q4⟩ := ih (by simpa using hp)
      exact ⟨q1, by omega, q3, q4⟩

theorem Wins.before {s : Sl} {a b l} (w : Wins s a l b) {i j : Nat} {p q : Sl} (hp : l[i]? = some p)
    (hq : l[j]? = some q) (hij : i < j) : p.off + p.len ≤ q.off := by
  induction w generalizing i j with
  | nil => simp at hp
  | cons h1 h2 w' ih =>
    cases j with
    | zero => omega
    | succ j =>
      cases i with
      | zero =>
        simp at hp; subst hp
        have := w'.get (by simpa using hq)
        simp only; omega
      | succ i => exact ih (by simpa using hp) (by simpa using hq) (by omega)

theorem Wins.next {s : Sl} {a b l} (w : Wins s a l b) {i : Nat} {p q : Sl} (hp : l[i]? = some p)
    (hq : l[i + 1]? = some q) : q.off = p.off + p.len := by
  induction w generalizing i with
  | nil => simp at hp
  | cons h1 h2 w' ih =>
    cases i with
    | zero =>
      simp at hp; subst hp
      cases w' with
      | nil => simp at hq
      | cons h3 h4 _ => simp at hq; subst hq; simp only; omega
    | succ i => exact ih (by simpa using hp) (by simpa using hq)

/-! ## What a call writes -/

/-- Everything the frame theorem says about a call that keeps to the window of its receiver. -/
def Keeps (h : Hp T) (p : Sl) (h' : Hp T) (p' : Sl) : Prop :=
  h.brk ≤ h'.brk ∧ p'.Ok h' ∧
  (∀ b k, b < h.brk → (b ≠ p.arr ∨ k < p.off ∨ p.off + p.len ≤ k) → h'.mem b k = h.mem b k) ∧
  (h.brk ≤ p'.arr ∨ (p'.arr = p.arr ∧ p.off ≤ p'.off ∧ p'.off + p'.len ≤ p.off + p.len))

omit [Inhabited T] in
theorem keeps_same {h h' : Hp T} {p : Sl} (o : p.Ok h) (hb : h'.brk = h.brk)
    (hf : ∀ b k, (b ≠ p.arr ∨ k < p.off ∨ p.off + p.len ≤ k) → h'.mem b k = h.mem b k) : Keeps h p h' p :=
  ⟨by omega, o.mono (by omega), fun b k _ => hf b k, Or.inr ⟨rfl, Nat.le_refl _, Nat.le_refl _⟩⟩

theorem keeps_cut {h : Hp T} {p : Sl} (o : p.Ok h) (i j : Int) (g1 g2 : Nat) {h' : Hp T} {p' : Sl}
    (e : cut h g1 g2 p i j = .ret (h', p')) : Keeps h p h' p' := by
  have hlh := lo_le_hi i j p.len
  have hh := hi_le i j p.len
  have hle := o.le
  simp only [cut, splice, clamp2_eq] at e
  generalize hLO : lo i j p.len = L at *
  generalize hHI : hi i j p.len = H at *
  rw [reslice_ret (by omega) (by omega) (by omega), reslice_ret (by omega) (by omega) (by omega)] at e
  simp only [Outcome.bind_ret, Int.toNat_zero, Nat.add_zero, Nat.sub_zero, Int.toNat_natCast, Int.sub_zero] at e
  rw [show ((p.len : Int) - (H : Int)).toNat = p.len - H by omega] at e
  generalize hvs : elems h ⟨p.arr, p.off + H, p.len - H, p.cap - H⟩ = vs at e
  have hl : vs.length = p.len - H := by rw [← hvs]; simp
  have hout := fun b k hb => append_out h g1 Sl.nil vs b k hb (Or.inr (Or.inr (Or.inl (by simp [Sl.nil]))))
  have hbrk := append_brk h g1 Sl.nil vs
  have hel := append_elems h g1 Sl.nil vs
  generalize append h g1 Sl.nil vs = q at *
  obtain ⟨h1, x⟩ := q
  simp only at hout hbrk hel e
  have hx : (elems h1 x).length = p.len - H := by rw [hel]; simp [hl]
  generalize elems h1 x = ws at *
  have e' := Outcome.ret.inj e
  unfold append at e'
  rw [if_pos (by simp only; omega)] at e'
  obtain ⟨rfl, rfl⟩ := Prod.mk.inj e'
  refine ⟨by simpa using hbrk, ⟨by simp only; omega, fun hc => ?_⟩, ?_, Or.inr ⟨rfl, Nat.le_refl _, by simp only; omega⟩⟩
  · have := o.lt hc
    simp only [blit_brk]; omega
  · intro b k hb hk
    rw [blit_out _ _ _ _ _ _ (by simp only; omega), hout b k hb]

theorem repeatLoop_keeps {n : Nat} (vs : List T) (gs : Nat → Nat) : ∀ (k : Nat) (h : Hp T) (r : Sl), n ≤ r.arr → n ≤ h.brk →
    n ≤ (repeatLoop vs gs k h r).2.arr ∧ h.brk ≤ (repeatLoop vs gs k h r).1.brk ∧
      ∀ b m, b < n → (repeatLoop vs gs k h r).1.mem b m = h.mem b m := by
  intro k
  induction k with
  | zero => intro h r hr _; exact ⟨hr, Nat.le_refl _, fun _ _ _ => rfl⟩
  | succ k ih =>
    intro h r hr hb
    simp only [repeatLoop]
    have ha := append_brk h (gs k) r vs
    obtain ⟨q1, q2, q3⟩ := ih (append h (gs k) r vs).1 (append h (gs k) r vs).2
      (by unfold append; split
          · exact hr
          · exact hb) (Nat.le_trans hb ha)
    refine ⟨q1, Nat.le_trans ha q2, fun b m hm => ?_⟩
    rw [q3 b m hm]
    exact append_out _ _ _ _ _ _ (by omega) (Or.inl (by omega))

theorem act_keeps {h : Hp T} {p : Sl} (o : p.Ok h) {c : Call T} (hc : c.Tame) {h' : Hp T} {p' : Sl}
    (e : act h p c = .ret (h', p')) : Keeps h p h' p' := by
  have hle := o.le
  cases c with
  | set i v =>
    by_cases h0 : p.len = 0
    · simp only [act, Slicex.set, if_pos h0, Outcome.bind_ret, Outcome.ret.injEq, Prod.mk.injEq] at e
      obtain ⟨rfl, rfl⟩ := e
      exact keeps_same o rfl (fun _ _ _ => rfl)
    · have hcl : 0 ≤ clamp i ((p.len : Int) - 1) ∧ clamp i ((p.len : Int) - 1) < p.len := by
        unfold clamp; split <;> [skip; split] <;> omega
      obtain ⟨h1, e1, hb, _, hf⟩ := store_ret h (s := p) (i := clamp i ((p.len : Int) - 1)) v hcl.1 hcl.2
      simp only [act, Slicex.set, if_neg h0, e1, Outcome.bind_ret, Outcome.ret.injEq, Prod.mk.injEq] at e
      obtain ⟨rfl, rfl⟩ := e
      exact keeps_same o hb (fun b k hk => hf b k (by omega))
  | reverse =>
    obtain ⟨h1, e1, hb, _, hf⟩ := reverseLoop_spec (s := p) p.len h 0 ((p.len : Int) - 1) (by omega) (by omega) (by omega)
    have e1' : reverse h p = .ret h1 := by simpa [reverse] using e1
    simp only [act, e1', Outcome.bind_ret, Outcome.ret.injEq, Prod.mk.injEq] at e
    obtain ⟨rfl, rfl⟩ := e
    exact keeps_same o hb hf
  | shuffle draw =>
    obtain ⟨h1, e1, hb, _, hf⟩ := shuffleLoop_spec (s := p) draw p.len h (Nat.le_refl _)
    simp only [act, shuffle, e1, Outcome.bind_ret, Outcome.ret.injEq, Prod.mk.injEq] at e
    obtain ⟨rfl, rfl⟩ := e
    exact keeps_same o hb hf
  | filter f =>
    obtain ⟨h1, n, e1, hb, hn, _, hf⟩ := filterLoop_spec (f := f) (s := p) p.len 0 0 h (by omega) (by omega)
    simp only [act, Slicex.filter, e1, Outcome.bind_ret] at e
    rw [reslice_ret (by omega) (by omega) (by omega)] at e
    simp only [Outcome.bind_ret, Outcome.ret.injEq, Prod.mk.injEq, Int.toNat_zero, Nat.add_zero, Nat.sub_zero] at e
    obtain ⟨rfl, rfl⟩ := e
    exact ⟨by omega, ⟨by simp only; omega, fun hc => hb ▸ o.lt hc⟩, fun b k _ => hf b k,
      Or.inr ⟨rfl, Nat.le_refl _, by simp only; omega⟩⟩
  | clear =>
    simp only [act, clear] at e
    rw [reslice_ret (by omega) (by omega) (by omega)] at e
    simp only [Outcome.bind_ret, Outcome.ret.injEq, Prod.mk.injEq, Int.toNat_zero, Nat.add_zero, Nat.sub_zero] at e
    obtain ⟨rfl, rfl⟩ := e
    exact ⟨Nat.le_refl _, ⟨by simp, o.lt⟩, fun _ _ _ _ => rfl, Or.inr ⟨rfl, Nat.le_refl _, by simp⟩⟩
  | slice i j =>
    simp only [act, slice, clamp2_eq] at e
    generalize (if j < 0 then wrap64 ((p.len : Int) + j) else j) = j' at e
    have hlh := lo_le_hi i j' p.len
    have hh := hi_le i j' p.len
    rw [reslice_ret (by omega) (by omega) (by omega)] at e
    simp only [Outcome.bind_ret, Outcome.ret.injEq, Prod.mk.injEq, Int.toNat_natCast] at e
    obtain ⟨rfl, rfl⟩ := e
    exact ⟨Nat.le_refl _, ⟨by simp only; omega, fun hc => o.lt (by simp only at hc; omega)⟩, fun _ _ _ _ => rfl,
      Or.inr ⟨rfl, by simp only; omega, by simp only; omega⟩⟩
  | cut i j g1 g2 => exact keeps_cut o i j g1 g2 e
  | delete i g1 g2 => exact keeps_cut o i (wrap64 (i + 1)) g1 g2 e
  | pop g1 g2 =>
    by_cases h0 : p.len = 0
    · simp only [act, pop, if_pos h0, Outcome.bind_ret, Outcome.ret.injEq, Prod.mk.injEq] at e
      obtain ⟨rfl, rfl⟩ := e
      exact keeps_same o rfl (fun _ _ _ => rfl)
    · obtain ⟨v, hv, _⟩ := index_ret h (s := p) (i := (p.len : Int) - 1) (by omega) (by omega)
      simp only [act, pop, if_neg h0, hv, Outcome.bind_ret] at e
      cases e1 : delete h g1 g2 p ((p.len : Int) - 1) with
      | ret q =>
        simp only [e1, Outcome.bind_ret, Outcome.ret.injEq] at e
        subst e
        exact keeps_cut o _ _ g1 g2 e1
      | panic => rw [e1] at e; cases e
      | hang => rw [e1] at e; cases e
  | shift g1 g2 =>
    by_cases h0 : p.len = 0
    · simp only [act, shift, if_pos h0, Outcome.bind_ret, Outcome.ret.injEq, Prod.mk.injEq] at e
      obtain ⟨rfl, rfl⟩ := e
      exact keeps_same o rfl (fun _ _ _ => rfl)
    · obtain ⟨v, hv, _⟩ := index_ret h (s := p) (i := 0) (by omega) (by omega)
      simp only [act, shift, if_neg h0, hv, Outcome.bind_ret] at e
      cases e1 : delete h g1 g2 p 0 with
      | ret q =>
        simp only [e1, Outcome.bind_ret, Outcome.ret.injEq] at e
        subst e
        exact keeps_cut o _ _ g1 g2 e1
      | panic => rw [e1] at e; cases e
      | hang => rw [e1] at e; cases e
  | deleteReplace i =>
    simp only [act, deleteReplace] at e
    by_cases h0 : p.len = 0
    · rw [index, if_neg (by omega)] at e; cases e
    · obtain ⟨v, hv, _⟩ := index_ret h (s := p) (i := (p.len : Int) - 1) (by omega) (by omega)
      simp only [hv, Outcome.bind_ret] at e
      have hcl : 0 ≤ clamp i (p.len : Int) := by rw [clamp_eq]; omega
      by_cases h1 : clamp i (p.len : Int) < p.len
      · obtain ⟨h1, e1, hb, _, hf⟩ := store_ret h (s := p) (i := clamp i (p.len : Int)) v hcl h1
        simp only [e1, Outcome.bind_ret] at e
        rw [reslice_ret (by omega) (by omega) (by omega)] at e
        simp only [Outcome.bind_ret, Outcome.ret.injEq, Prod.mk.injEq, Int.toNat_zero, Nat.add_zero, Nat.sub_zero] at e
        obtain ⟨rfl, rfl⟩ := e
        exact ⟨by omega, ⟨by simp only; omega, fun hc => hb ▸ o.lt hc⟩, fun b k _ hk => hf b k (by omega),
          Or.inr ⟨rfl, Nat.le_refl _, by simp only; omega⟩⟩
      · rw [store, if_neg (by omega)] at e; cases e
  | rep lim gs n =>
    simp only [act, rep, makeSl] at e
    split at e
    · simp only [Outcome.bind_ret, Outcome.ret.injEq] at e
      generalize hal : h.alloc (List.replicate (0 : Int).toNat (default : T)) (wrap64 (p.len * n) - 0).toNat = q at e
      have h1 : h.brk ≤ q.2.arr := by rw [← hal]; exact Nat.le_refl _
      have h2 : h.brk ≤ q.1.brk := by rw [← hal]; exact Nat.le_succ _
      have h3 : ∀ b k, b < h.brk → q.1.mem b k = h.mem b k := by rw [← hal]; exact fun b k hb => alloc_out _ _ _ _ _ hb
      have h4 : q.2.Ok q.1 := by rw [← hal]; exact alloc_ok _ _ _
      obtain ⟨k1, k2, k3⟩ := repeatLoop_keeps (n := h.brk) (elems q.1 p) gs n.toNat q.1 q.2 h1 h2
      obtain ⟨_, k4⟩ := repeatLoop_spec (elems q.1 p) gs n.toNat q.1 q.2 h4
      have e' : repeatLoop (elems q.1 p) gs n.toNat q.1 q.2 = (h', p') := e
      rw [e'] at k1 k2 k3 k4
      exact ⟨Nat.le_trans h2 k2, k4, fun b k hb _ => (k3 b k hb).trans (h3 b k hb), Or.inl k1⟩
    · cases e
  | push | unShift | insert | extend | rotate => exact hc.elim

/-! ## Any call: nothing in front of the receiver is written -/

theorem insert_front {h : Hp T} {p : Sl} (o : p.Ok h) (i : Int) (v : T) (g1 g2 : Nat) {h' : Hp T} {p' : Sl}
    (e : insert h g1 g2 p i v = .ret (h', p')) (b k : Nat) (hb : b < h.brk)
    (hk : b ≠ p.arr ∨ k < p.off ∨ p.off + p.cap ≤ k) : h'.mem b k = h.mem b k := by
  have h2 : h.brk ≤ (h.alloc [v] 0).1.brk := Nat.le_succ _
  have hcap : (h.alloc [v] 0).2.cap = (h.alloc [v] 0).2.len := rfl
  obtain ⟨h1, s1, e1, _, _, _, _, hf⟩ := splice_spec (h.alloc [v] 0).1 g1 g2 (s := p) (v := (h.alloc [v] 0).2) i i
    (o.mono h2) (noClash_of_full hcap _ _)
  have e2 : insert h g1 g2 p i v = .ret (h1, s1) := e1
  rw [e2] at e
  obtain ⟨rfl, rfl⟩ := Prod.mk.inj (Outcome.ret.inj e)
  rw [hf b k (by omega) (by omega) (Or.inr hcap)]
  exact alloc_out _ _ _ _ _ hb

theorem rot_front {h : Hp T} {p : Sl} (hle : p.len ≤ p.cap) (g : Nat) (x : Int) {h' : Hp T} {p' : Sl} (h0 : 0 ≤ x)
    (h1 : x ≤ p.len)
    (e : ((reslice p x p.len).bind fun a => (reslice p 0 x).bind fun b => .ret (append h g a (elems h b))) =
      Outcome.ret (h', p')) (b k : Nat) (hb : b < h.brk)
    (hk : b ≠ p.arr ∨ k < p.off ∨ p.off + p.cap ≤ k) : h'.mem b k = h.mem b k := by
  rw [reslice_ret (by omega) (by omega) (by omega), reslice_ret (by omega) (by omega) (by omega)] at e
  simp only [Outcome.bind_ret, Outcome.ret.injEq] at e
  have := append_out h g ⟨p.arr, p.off + x.toNat, ((p.len : Int) - x).toNat, p.cap - x.toNat⟩
    (elems h ⟨p.arr, p.off + (0 : Int).toNat, (x - 0).toNat, p.cap - (0 : Int).toNat⟩) b k hb (by simp only; omega)
  rw [e] at this
  exact this

/-- No call writes to old memory outside the capacity of its receiver. -/
theorem act_front {h : Hp T} {p : Sl} (o : p.Ok h) {c : Call T} {h' : Hp T} {p' : Sl}
    (e : act h p c = .ret (h', p')) (b k : Nat) (hb : b < h.brk)
    (hk : b ≠ p.arr ∨ k < p.off ∨ p.off + p.cap ≤ k) : h'.mem b k = h.mem b k := by
  have hle := o.le
  cases c with
  | push v g1 g2 => exact insert_front o _ v g1 g2 e b k hb hk
  | unShift v g1 g2 => exact insert_front o 0 v g1 g2 e b k hb hk
  | insert i v g1 g2 => exact insert_front o i v g1 g2 e b k hb hk
  | extend lim g n =>
    simp only [act, extend, makeSl] at e
    split at e
    · simp only [Outcome.bind_ret, Outcome.ret.injEq] at e
      generalize hal : h.alloc (List.replicate (clamp n n).toNat (default : T)) (clamp n n - clamp n n).toNat = q at e
      have h2 : h.brk ≤ q.1.brk := by rw [← hal]; exact Nat.le_succ _
      have h3 : q.1.mem b k = h.mem b k := by rw [← hal]; exact alloc_out _ _ _ _ _ hb
      have := append_out q.1 g p (elems q.1 q.2) b k (by omega) (by omega)
      have e' : append q.1 g p (elems q.1 q.2) = (h', p') := e
      rw [e'] at this
      exact this.trans h3
    · cases e
  | rotate n g =>
    simp only [act, rotate] at e
    by_cases h0 : p.len = 0
    · rw [if_pos h0] at e
      obtain ⟨rfl, rfl⟩ := Prod.mk.inj (Outcome.ret.inj e)
      rfl
    · rw [if_neg h0] at e
      by_cases h1 : n > 0
      · rw [if_pos h1] at e
        have q1 := Int.tmod_nonneg (p.len : Int) (a := n) (by omega)
        have q2 := Int.tmod_lt_of_pos n (b := (p.len : Int)) (by omega)
        exact rot_front hle g _ q1 (by omega) e b k hb hk
      · rw [if_neg h1] at e
        by_cases h2 : n < 0
        · rw [if_pos h2] at e
          by_cases hx : 0 ≤ (wrap64 (-n)).tmod p.len
          · have q2 := Int.tmod_lt_of_pos (wrap64 (-n)) (b := (p.len : Int)) (by omega)
            exact rot_front hle g _ (by omega) (by omega) e b k hb hk
          · rw [reslice, if_neg (by omega)] at e; cases e
        · rw [if_neg h2] at e
          obtain ⟨rfl, rfl⟩ := Prod.mk.inj (Outcome.ret.inj e)
          rfl
  | _ => exact (act_keeps o (by trivial) e).2.2.1 b k hb (by omega)

theorem Pieces.wins {h : Hp T} {s : Sl} {r : List Sl} (w : Pieces s r) (o : s.Ok h) (hl : (s.len : Int) < 2 ^ 63) :
    Wins s 0 r s.len := by
  rcases w with ⟨ns, hn, hs, e⟩ | ⟨n, e⟩
  · obtain ⟨r', e', w⟩ := split_wins o.le hn hs
    rw [e] at e'; cases e'; exact w
  · obtain ⟨ns, e1, hn, hs⟩ := batch_split (s := s) n
    obtain ⟨r', e', w⟩ := split_wins o.le hn (Or.inr (by omega))
    rw [e1, e'] at e; cases e; exact w

/-! ## The pieces stay apart -/

/-- Two variables show no common memory. -/
def Apart (p q : Sl) : Prop :=
  p.len = 0 ∨ q.len = 0 ∨ p.arr ≠ q.arr ∨ p.off + p.len ≤ q.off ∨ q.off + q.len ≤ p.off

/-- The variables are good slices and show no common memory. -/
structure Inv (h : Hp T) (r : List Sl) : Prop where
  ok : ∀ (i : Nat) (p : Sl), r[i]? = some p → p.Ok h
  apart : ∀ (i j : Nat) (p q : Sl), i ≠ j → r[i]? = some p → r[j]? = some q → Apart p q

omit [Inhabited T] in
theorem keeps_other {h h' : Hp T} {p p' q : Sl} (oq : q.Ok h) (a : Apart p q) (k : Keeps h p h' p') :
    elems h' q = elems h q ∧ Apart p' q := by
  obtain ⟨hb, _, hf, hw⟩ := k
  have hq : 0 < q.len → q.arr < h.brk := fun h0 => oq.lt (Nat.lt_of_lt_of_le h0 oq.le)
  unfold Apart at *
  constructor
  · refine elems_congr (fun m hm => ?_)
    by_cases hp : p.len = 0
    · exact hf _ _ (hq (by omega)) (by omega)
    · exact hf _ _ (hq (by omega)) (by omega)
  · rcases hw with hw | ⟨w1, w2, w3⟩
    · by_cases h0 : q.len = 0
      · exact Or.inr (Or.inl h0)
      · have := hq (by omega); exact Or.inr (Or.inr (Or.inl (by omega)))
    · rw [w1]; omega

theorem inv_start {h : Hp T} {s : Sl} {r : List Sl} (o : s.Ok h) (w : Wins s 0 r s.len) : Inv h r := by
  constructor
  · intro i p hp
    obtain ⟨h1, h2, h3, h4⟩ := w.get hp
    have := h4 o.le; have := o.le
    exact ⟨by omega, fun hc => h1 ▸ o.lt (by omega)⟩
  · intro i j p q hij hp hq
    unfold Apart
    rcases Nat.lt_or_gt_of_ne hij with hlt | hlt
    · have := w.before hp hq hlt; omega
    · have := w.before hq hp hlt; omega

theorem inv_step {h h' : Hp T} {r : List Sl} {i : Nat} {p p' : Sl} (v : Inv h r) (hp : r[i]? = some p)
    (k : Keeps h p h' p') : Inv h' (r.set i p') := by
  have hi : i < r.length := by
    rcases Nat.lt_or_ge i r.length with h | h
    · exact h
    · rw [List.getElem?_eq_none h] at hp; cases hp
  have hget : ∀ j q, (r.set i p')[j]? = some q → (j = i ∧ q = p') ∨ (j ≠ i ∧ r[j]? = some q) := by
    intro j q hq
    rw [List.getElem?_set] at hq
    by_cases e : i = j
    · subst e; rw [if_pos rfl, if_pos hi] at hq; left; exact ⟨rfl, (Option.some.inj hq).symm⟩
    · rw [if_neg e] at hq; right; exact ⟨fun x => e x.symm, hq⟩
  have hsymm : ∀ a b : Sl, Apart a b → Apart b a := by intro a b x; unfold Apart at *; omega
  constructor
  · intro j q hq
    rcases hget j q hq with ⟨_, rfl⟩ | ⟨_, hq⟩
    · exact k.2.1
    · exact (v.ok j q hq).mono k.1
  · intro a b x y hab hx hy
    rcases hget a x hx with ⟨rfl, rfl⟩ | ⟨ha, hx'⟩ <;> rcases hget b y hy with ⟨rfl, rfl⟩ | ⟨hb, hy'⟩
    · exact absurd rfl hab
    · exact (keeps_other (v.ok _ _ hy') (v.apart _ _ _ _ hab hp hy') k).2
    · exact hsymm _ _ (keeps_other (v.ok _ _ hx') (v.apart _ _ _ _ (Ne.symm hab) hp hx') k).2
    · exact v.apart _ _ _ _ hab hx' hy'

theorem used_inv {h h1 : Hp T} {r r1 : List Sl} (v : Inv h r) (u : Used Call.Tame h r h1 r1) : Inv h1 r1 := by
  induction u with
  | start => exact v
  | step _ hp hc e ih => exact inv_step ih hp (act_keeps (ih.ok _ _ hp) hc e)

end Verif.SliceParts
