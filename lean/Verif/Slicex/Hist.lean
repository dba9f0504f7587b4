import Verif.Slicex.Lemmas
/-!
# Histories: double-ended use, and two handles after `Copy`
-/
namespace Verif.Slicex
open Verif.Go
variable {T : Type} [Inhabited T]

/-! ## Double-ended queue -/

/-- A call; the numbers are the capacity surpluses `append` chooses. -/
inductive DOp (T : Type) where
  | push (v : T) (g1 g2 : Nat)
  | pop (g1 g2 : Nat)
  | unShift (v : T) (g1 g2 : Nat)
  | shift (g1 g2 : Nat)

/-- What a call shows. -/
inductive DOut (T : Type) where
  | done
  | val (v : T)
  | fail
  deriving DecidableEq

def outU : Outcome (Hp T × Sl) → (Hp T × Sl) → (Hp T × Sl) × DOut T
  | .ret p, _ => (p, .done)
  | _, p => (p, .fail)

def outV : Outcome ((Hp T × Sl) × T) → (Hp T × Sl) → (Hp T × Sl) × DOut T
  | .ret (p, v), _ => (p, .val v)
  | _, p => (p, .fail)

def dstep (p : Hp T × Sl) : DOp T → (Hp T × Sl) × DOut T
  | .push v g1 g2 => outU (push p.1 g1 g2 p.2 v) p
  | .pop g1 g2 => outV (pop p.1 g1 g2 p.2) p
  | .unShift v g1 g2 => outU (unShift p.1 g1 g2 p.2 v) p
  | .shift g1 g2 => outV (shift p.1 g1 g2 p.2) p

/-- The results of a history of calls, and the slice at the end. -/
def drun (p : Hp T × Sl) : List (DOp T) → (Hp T × Sl) × List (DOut T)
  | [] => (p, [])
  | op :: ops =>
    let (p, o) := dstep p op
    let (p, os) := drun p ops
    (p, o :: os)

/-- The same on a list. -/
def dspec (l : List T) : DOp T → List T × DOut T
  | .push v _ _ => (l ++ [v], .done)
  | .pop _ _ => (l.dropLast, .val (l.getLast?.getD default))
  | .unShift v _ _ => (v :: l, .done)
  | .shift _ _ => (l.tail, .val (l.head?.getD default))

def dspecRun (l : List T) : List (DOp T) → List T × List (DOut T)
  | [] => (l, [])
  | op :: ops =>
    let (l, o) := dspec l op
    let (l, os) := dspecRun l ops
    (l, o :: os)

theorem dstep_spec {h : Hp T} {s : Sl} (o : s.Ok h) (hs : (s.len : Int) < 2 ^ 63) (op : DOp T) :
    ∃ h' s' r, dstep (h, s) op = ((h', s'), r) ∧ s'.Ok h' ∧ s'.len ≤ s.len + 1 ∧
      dspec (elems h s) op = (elems h' s', r) := by
  have hle : ∀ {h' : Hp T} {s' : Sl} {l : List T}, elems h' s' = l → l.length ≤ s.len + 1 → s'.len ≤ s.len + 1 := by
    intro h' s' l e hl
    rw [← elems_length h' s', e]; exact hl
  cases op with
  | push v g1 g2 =>
    obtain ⟨h', s', e, ok, _, he, _⟩ := insert_spec h g1 g2 (s.len : Int) v o
    have hb : bound (s.len : Int) s.len = s.len := by unfold bound; omega
    rw [hb, List.take_of_length_le (by simp), List.drop_of_length_le (by simp), List.append_nil] at he
    exact ⟨h', s', .done, by simp [dstep, push, e, outU], ok, hle he (by simp), by simp [dspec, he]⟩
  | pop g1 g2 =>
    by_cases h0 : s.len = 0
    · have hn : elems h s = [] := List.eq_nil_of_length_eq_zero (by simpa using h0)
      exact ⟨h, s, .val default, by simp [dstep, pop, h0, outV], o, by omega, by simp [dspec, hn]⟩
    · obtain ⟨v, hv, hv2⟩ := index_ret h (s := s) (i := (s.len : Int) - 1) (by omega) (by omega)
      obtain ⟨h', s', e, ok, _, he, _⟩ := delete_spec h g1 g2 ((s.len : Int) - 1) o (by unfold InInt64; omega) (by omega)
      have hd : deleteSpec (elems h s) ((s.len : Int) - 1) = (elems h s).dropLast := by
        rw [deleteSpec, if_pos (by omega), List.eraseIdx_eq_dropLast]
        simp; omega
      rw [hd] at he
      refine ⟨h', s', .val v, by simp [dstep, pop, h0, outV, hv, e], ok, hle he (by simp; omega), ?_⟩
      have hx : ((s.len : Int) - 1).toNat = (elems h s).length - 1 := by simp
      rw [hx, ← List.getLast?_eq_getElem?] at hv2
      simp [dspec, he, hv2]
  | unShift v g1 g2 =>
    obtain ⟨h', s', e, ok, _, he, _⟩ := insert_spec h g1 g2 0 v o
    have hb : bound 0 s.len = 0 := by unfold bound; omega
    rw [hb] at he
    simp only [List.take_zero, List.nil_append, List.drop_zero, List.singleton_append] at he
    exact ⟨h', s', .done, by simp [dstep, unShift, e, outU], ok, hle he (by simp), by simp [dspec, he]⟩
  | shift g1 g2 =>
    by_cases h0 : s.len = 0
    · have hn : elems h s = [] := List.eq_nil_of_length_eq_zero (by simpa using h0)
      exact ⟨h, s, .val default, by simp [dstep, shift, h0, outV], o, by omega, by simp [dspec, hn]⟩
    · obtain ⟨v, hv, hv2⟩ := index_ret h (s := s) (i := 0) (by omega) (by omega)
      obtain ⟨h', s', e, ok, _, he, _⟩ := delete_spec h g1 g2 0 o (by unfold InInt64; omega) (by omega)
      have hd : deleteSpec (elems h s) 0 = (elems h s).tail := by simp [deleteSpec]
      rw [hd] at he
      refine ⟨h', s', .val v, by simp [dstep, shift, h0, outV, hv, e], ok, hle he (by simp; omega), ?_⟩
      have hx : (elems h s).head? = some v := by rw [List.head?_eq_getElem?]; exact hv2
      simp [dspec, he, hx]

theorem drun_spec (ops : List (DOp T)) : ∀ {h : Hp T} {s : Sl}, s.Ok h → (s.len : Int) + ops.length < 2 ^ 63 →
    dspecRun (elems h s) ops = (elems (drun (h, s) ops).1.1 (drun (h, s) ops).1.2, (drun (h, s) ops).2) := by
  induction ops with
  | nil => intro h s _ _; rfl
  | cons op ops ih =>
    intro h s o hs
    rw [List.length_cons] at hs
    obtain ⟨h', s', r, e, ok, hl, he⟩ := dstep_spec o (by omega) op
    have := ih ok (by omega)
    simp only [drun, dspecRun, e, he, this]

/-! ## Two handles -/

/-- What a program can do through a slice: store, append, reslice (also into spare capacity). -/
inductive W (T : Type) where
  | store (i : Int) (v : T)
  | app (g : Nat) (vs : List T)
  | slice (lo hi : Int)

/-- One operation; one that panics changes nothing. -/
def wstep (h : Hp T) (s : Sl) : W T → Hp T × Sl
  | .store i v => match store h s i v with | .ret h' => (h', s) | _ => (h, s)
  | .app g vs => append h g s vs
  | .slice lo hi => match reslice s lo hi with | .ret s' => (h, s') | _ => (h, s)

/-- A sequence through one handle. -/
def wrun (h : Hp T) (s : Sl) : List (W T) → Hp T × Sl
  | [] => (h, s)
  | w :: ws => let (h, s) := wstep h s w; wrun h s ws

/-- Operations through two handles in any order; `true` is the first one. -/
def wrun2 (h : Hp T) (a b : Sl) : List (Bool × W T) → Hp T × Sl × Sl
  | [] => (h, a, b)
  | (true, w) :: ws => let (h, a) := wstep h a w; wrun2 h a b ws
  | (false, w) :: ws => let (h, b) := wstep h b w; wrun2 h a b ws

/-- The operations through one of the handles. -/
def side (c : Bool) (ws : List (Bool × W T)) : List (W T) := (ws.filter (·.1 = c)).map (·.2)

/-- Two slices that do not share memory. -/
def Sep (a b : Sl) : Prop := a.cap = 0 ∨ b.cap = 0 ∨ a.arr ≠ b.arr

omit [Inhabited T] in
theorem Sep.symm {a b : Sl} (h : Sep a b) : Sep b a := by
  unfold Sep at *; rcases h with h | h | h
  · exact Or.inr (Or.inl h)
  · exact Or.inl h
  · exact Or.inr (Or.inr (Ne.symm h))

/-- Two slices, each in its memory, that look alike within their capacity. -/
structure Same (h : Hp T) (a : Sl) (h' : Hp T) (a' : Sl) : Prop where
  off : a.off = a'.off
  len : a.len = a'.len
  cap : a.cap = a'.cap
  mem : ∀ k, k < a.cap → h.mem a.arr (a.off + k) = h'.mem a'.arr (a'.off + k)

omit [Inhabited T] in
theorem Same.elems {h h' : Hp T} {a a' : Sl} (s : Same h a h' a') (o : a.Ok h) : elems h a = elems h' a' := by
  refine elems_ext (by simp [s.len]) (fun k hk => ?_)
  rw [elems_getElem?, if_pos (by have := s.len; omega), s.mem k (by have := o.le; omega)]

theorem wstep_ok {h : Hp T} {a : Sl} (o : a.Ok h) (w : W T) : (wstep h a w).2.Ok (wstep h a w).1 ∧
    h.brk ≤ (wstep h a w).1.brk := by
  cases w with
  | store i v =>
    simp only [wstep, store]
    by_cases hc : 0 ≤ i ∧ i < a.len
    · rw [if_pos hc]; exact ⟨⟨o.le, o.lt⟩, Nat.le_refl _⟩
    · rw [if_neg hc]; exact ⟨o, Nat.le_refl _⟩
  | app g vs => exact ⟨append_ok _ _ _ o, append_brk _ _ _ _⟩
  | slice lo hi =>
    simp only [wstep, reslice]
    by_cases hc : 0 ≤ lo ∧ lo ≤ hi ∧ hi ≤ a.cap
    · rw [if_pos hc]
      have := window_ok o lo.toNat hi.toNat (by omega) (by omega)
      refine ⟨?_, Nat.le_refl _⟩
      rw [show (hi - lo).toNat = hi.toNat - lo.toNat by omega]
      exact this
    · rw [if_neg hc]; exact ⟨o, Nat.le_refl _⟩

/-- A step through one handle leaves the other's memory alone, and the two stay apart. -/
theorem wstep_frame {h : Hp T} {a b : Sl} (oa : a.Ok h) (ob : b.Ok h) (hs : Sep a b) (w : W T) :
    Sep (wstep h a w).2 b ∧ ∀ k, k < b.cap → (wstep h a w).1.mem b.arr (b.off + k) = h.mem b.arr (b.off + k) := by
  have hle := oa.le
  cases w with
  | store i v =>
    simp only [wstep, store]
    by_cases hc : 0 ≤ i ∧ i < a.len
    · rw [if_pos hc]
      refine ⟨hs, fun k hk => blit_out _ _ _ _ _ _ ?_⟩
      rcases hs with e | e | e
      · omega
      · omega
      · exact Or.inl (Ne.symm e)
    · rw [if_neg hc]; exact ⟨hs, fun _ _ => rfl⟩
  | app g vs =>
    simp only [wstep, append]
    split
    · refine ⟨hs, fun k hk => blit_out _ _ _ _ _ _ ?_⟩
      rcases hs with e | e | e
      · right; omega
      · omega
      · exact Or.inl (Ne.symm e)
    · refine ⟨?_, fun k hk => alloc_out _ _ _ _ _ (ob.lt (by omega))⟩
      by_cases hb : b.cap = 0
      · exact Or.inr (Or.inl hb)
      · have := ob.lt (by omega)
        exact Or.inr (Or.inr (by simp only [Hp.alloc]; omega))
  | slice lo hi =>
    simp only [wstep, reslice]
    by_cases hc : 0 ≤ lo ∧ lo ≤ hi ∧ hi ≤ a.cap
    · rw [if_pos hc]
      refine ⟨?_, fun _ _ => rfl⟩
      rcases hs with e | e | e
      · exact Or.inl (by simp only; omega)
      · exact Or.inr (Or.inl e)
      · exact Or.inr (Or.inr e)
    · rw [if_neg hc]; exact ⟨hs, fun _ _ => rfl⟩

/-- The same step in two memories that look alike to the slice. -/
theorem wstep_same {h h' : Hp T} {a a' : Sl} (o : a.Ok h) (s : Same h a h' a') (w : W T) :
    Same (wstep h a w).1 (wstep h a w).2 (wstep h' a' w).1 (wstep h' a' w).2 := by
  have hle := o.le
  obtain ⟨e1, e2, e3, e4⟩ := s
  cases w with
  | store i v =>
    simp only [wstep, store]
    by_cases hc : 0 ≤ i ∧ i < a.len
    · rw [if_pos hc, if_pos (by omega)]
      refine ⟨e1, e2, e3, fun k hk => ?_⟩
      simp only
      by_cases hk2 : k = i.toNat
      · subst hk2
        rw [blit_in _ _ _ _ _ v (Nat.le_refl _) (by simp), blit_in _ _ _ _ _ v (Nat.le_refl _) (by simp)]
      · rw [blit_out _ _ _ _ _ _ (by simp; omega), blit_out _ _ _ _ _ _ (by simp; omega), e4 k hk]
    · rw [if_neg hc, if_neg (by omega)]; exact ⟨e1, e2, e3, e4⟩
  | app g vs =>
    have hel : elems h a = elems h' a' := Same.elems ⟨e1, e2, e3, e4⟩ o
    simp only [wstep, append]
    by_cases hc : a.len + vs.length ≤ a.cap
    · rw [if_pos hc, if_pos (by omega)]
      refine ⟨e1, by simp only; omega, e3, fun k hk => ?_⟩
      simp only at hk ⊢
      by_cases hk2 : a.len ≤ k ∧ k < a.len + vs.length
      · have hg : vs[k - a.len]? = some (vs[k - a.len]'(by omega)) := List.getElem?_eq_getElem _
        rw [blit_in _ _ _ _ _ _ (by omega) (by rw [show a.off + k - (a.off + a.len) = k - a.len by omega]; exact hg),
          blit_in _ _ _ _ _ _ (by omega) (by rw [show a'.off + k - (a'.off + a'.len) = k - a.len by omega]; exact hg)]
      · rw [blit_out _ _ _ _ _ _ (by omega), blit_out _ _ _ _ _ _ (by omega), e4 k hk]
    · rw [if_neg hc, if_neg (by omega), hel]
      refine ⟨rfl, rfl, rfl, fun k hk => ?_⟩
      simp [Hp.alloc]
  | slice lo hi =>
    simp only [wstep, reslice]
    by_cases hc : 0 ≤ lo ∧ lo ≤ hi ∧ hi ≤ a.cap
    · rw [if_pos hc, if_pos (by omega)]
      refine ⟨by simp only; omega, rfl, by simp only; omega, fun k hk => ?_⟩
      simp only at hk ⊢
      have := e4 (lo.toNat + k) (by omega)
      rw [← Nat.add_assoc, ← Nat.add_assoc] at this
      exact this
    · rw [if_neg hc, if_neg (by omega)]; exact ⟨e1, e2, e3, e4⟩

theorem wrun2_same (ws : List (Bool × W T)) : ∀ {h ha hb : Hp T} {a b a' b' : Sl}, a.Ok h → b.Ok h → Sep a b →
    Same h a ha a' → Same h b hb b' →
    let r := wrun2 h a b ws
    elems r.1 r.2.1 = elems (wrun ha a' (side true ws)).1 (wrun ha a' (side true ws)).2 ∧
    elems r.1 r.2.2 = elems (wrun hb b' (side false ws)).1 (wrun hb b' (side false ws)).2 := by
  induction ws with
  | nil => intro h ha hb a b a' b' oa ob _ sa sb; exact ⟨sa.elems oa, sb.elems ob⟩
  | cons x ws ih =>
    intro h ha hb a b a' b' oa ob hs sa sb
    obtain ⟨c, w⟩ := x
    cases c with
    | true =>
      obtain ⟨h1, h2⟩ := wstep_frame oa ob hs w
      obtain ⟨h3, h4⟩ := wstep_ok oa w
      have hb2 : Same (wstep h a w).1 b hb b' := ⟨sb.off, sb.len, sb.cap, fun k hk => by rw [h2 k hk, sb.mem k hk]⟩
      simpa [wrun2, side, wrun] using ih h3 (ob.mono h4) h1 (wstep_same oa sa w) hb2
    | false =>
      obtain ⟨h1, h2⟩ := wstep_frame ob oa hs.symm w
      obtain ⟨h3, h4⟩ := wstep_ok ob w
      have ha2 : Same (wstep h b w).1 a ha a' := ⟨sa.off, sa.len, sa.cap, fun k hk => by rw [h2 k hk, sa.mem k hk]⟩
      simpa [wrun2, side, wrun] using ih (oa.mono h4) h3 h1.symm ha2 (wstep_same ob sb w)

/-- What `Copy` returns does not share memory with the original. -/
theorem copy_spec (h : Hp T) (g : Nat) {s : Sl} (o : s.Ok h) :
    elems (copy h g s).1 (copy h g s).2 = elems h s ∧ (copy h g s).2.Ok (copy h g s).1 ∧ s.Ok (copy h g s).1 ∧
    Sep s (copy h g s).2 ∧ ∀ b k, b < h.brk → (copy h g s).1.mem b k = h.mem b k := by
  refine ⟨?_, ?_, o.mono (append_brk _ _ _ _), ?_, ?_⟩
  · rw [copy, append_elems]; simp [elems]
  · exact append_ok _ _ _ ⟨Nat.le_refl _, fun hc => absurd hc (by simp)⟩
  · simp only [copy, append]
    split
    · exact Or.inr (Or.inl rfl)
    · by_cases hc : s.cap = 0
      · exact Or.inl hc
      · have := o.lt (by omega)
        exact Or.inr (Or.inr (by simp only [Hp.alloc]; omega))
  · intro b k hb
    exact append_out _ _ _ _ _ _ hb (by simp only; omega)

end Verif.Slicex
