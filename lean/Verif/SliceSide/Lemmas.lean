import Verif.SliceSide.Spec
import Verif.SliceAll.Props
import Verif.SliceParts.Lemmas
/-!
# Where the methods write
-/
namespace Verif.SliceSide
open Verif.Go Verif.Slicex Verif.SliceAll

variable {T : Type} [Inhabited T]

/-- Only memory in the window of `s` has changed, and the window of `s'` is part of it or new. -/
structure Own (h : Hp T) (s : Sl) (h' : Hp T) (s' : Sl) : Prop where
  brk : h.brk ≤ h'.brk
  mem : ∀ b k, b < h.brk → (b ≠ s.arr ∨ k < s.off ∨ s.off + s.cap ≤ k) → h'.mem b k = h.mem b k
  ok : s'.Ok h'
  win : s'.cap = 0 ∨ h.brk ≤ s'.arr ∨ (s'.arr = s.arr ∧ s.off ≤ s'.off ∧ s'.off + s'.cap ≤ s.off + s.cap)

omit [Inhabited T] in
theorem own_mono {h h' : Hp T} {s : Sl} (o : s.Ok h) (hb : h.brk ≤ h'.brk) (hm : ∀ b k, b < h.brk → h'.mem b k = h.mem b k) :
    Own h s h' s :=
  ⟨hb, fun b k h1 _ => hm b k h1, o.mono hb, .inr (.inr ⟨rfl, Nat.le_refl _, Nat.le_refl _⟩)⟩

omit [Inhabited T] in
theorem own_refl {h : Hp T} {s : Sl} (o : s.Ok h) : Own h s h s := own_mono o (Nat.le_refl _) fun _ _ _ => rfl

omit [Inhabited T] in
theorem Own.trans {h h1 h2 : Hp T} {s s1 s2 : Sl} (a : Own h s h1 s1) (b : Own h1 s1 h2 s2) : Own h s h2 s2 := by
  have ha := a.brk; have hb := b.brk; have wa := a.win; have wb := b.win
  refine ⟨by omega, fun c k h1 h2 => ?_, b.ok, by omega⟩
  rw [b.mem c k (by omega) (by omega), a.mem c k h1 h2]

omit [Inhabited T] in
theorem own_reslice {h : Hp T} {s : Sl} (o : s.Ok h) {lo hi : Int} {a : Sl} (e : reslice s lo hi = .ret a) : Own h s h a := by
  unfold reslice at e
  split at e
  · rename_i hc
    cases e
    exact ⟨Nat.le_refl _, fun _ _ _ _ => rfl, ⟨by simp only; omega, fun hc => o.lt (by simp only at hc; omega)⟩,
      .inr (.inr ⟨rfl, by simp only; omega, by simp only; omega⟩)⟩
  · cases e

omit [Inhabited T] in
theorem own_same {h h' : Hp T} {s : Sl} (o : s.Ok h) (hb : h'.brk = h.brk)
    (hf : ∀ b k, (b ≠ s.arr ∨ k < s.off ∨ s.off + s.len ≤ k) → h'.mem b k = h.mem b k) : Own h s h' s := by
  have hle := o.le
  exact ⟨by omega, fun b k _ hk => hf b k (by omega), o.mono (by omega), .inr (.inr ⟨rfl, Nat.le_refl _, Nat.le_refl _⟩)⟩

theorem own_append {h : Hp T} {s : Sl} (o : s.Ok h) (g : Nat) (vs : List T) : Own h s (append h g s vs).1 (append h g s vs).2 := by
  refine ⟨append_brk h g s vs, fun b k h1 h2 => append_out h g s vs b k h1 (by omega), append_ok h g vs o, ?_⟩
  unfold append
  split
  · exact .inr (.inr ⟨rfl, Nat.le_refl _, Nat.le_refl _⟩)
  · exact .inr (.inl (Nat.le_refl _))

theorem own_splice {h0 h : Hp T} {s v : Sl} (o : s.Ok h0) (hb : h0.brk ≤ h.brk) (hm : ∀ b k, b < h0.brk → h.mem b k = h0.mem b k)
    (hv : h0.brk ≤ v.arr ∨ v.cap = 0) {g1 g2 : Nat} {i j : Int} {h' : Hp T} {s' : Sl}
    (e : splice h g1 g2 s i j v = .ret (h', s')) : Own h0 s h' s' := by
  unfold splice at e
  generalize clamp2 i j s.len = ij at e
  obtain ⟨i, j⟩ := ij
  simp only at e
  cases ea : reslice s 0 i with
  | ret a =>
    cases eb : reslice s j s.len with
    | ret b =>
      simp only [ea, eb, Outcome.bind_ret, Outcome.ret.injEq] at e
      generalize ew : append h g1 v (elems h b) = w at e
      have h1 : h0.brk ≤ w.1.brk := by rw [← ew]; exact Nat.le_trans hb (append_brk _ _ _ _)
      have h2 : ∀ b k, b < h0.brk → w.1.mem b k = h0.mem b k := by
        intro b' k hb'
        rw [← ew, append_out _ _ _ _ _ _ (by omega) (by omega), hm b' k hb']
      have o1 := own_mono o h1 h2
      have o2 := o1.trans (own_reslice o1.ok ea)
      have o3 := o2.trans (own_append o2.ok g2 (elems w.1 w.2))
      rw [e] at o3
      exact o3
    | panic => simp only [ea, eb, Outcome.bind_ret] at e; cases e
    | hang => simp only [ea, eb, Outcome.bind_ret] at e; cases e
  | panic => simp only [ea] at e; cases e
  | hang => simp only [ea] at e; cases e

theorem args_own (h : Hp T) (vs : List T) : h.brk ≤ (args h vs).1.brk ∧ (∀ b k, b < h.brk → (args h vs).1.mem b k = h.mem b k) ∧
    (h.brk ≤ (args h vs).2.arr ∨ (args h vs).2.cap = 0) ∧ (args h vs).2.Ok (args h vs).1 ∧ elems (args h vs).1 (args h vs).2 = vs := by
  unfold args
  cases vs with
  | nil => exact ⟨Nat.le_refl _, fun _ _ _ => rfl, .inr rfl, Sl.nil_ok _, rfl⟩
  | cons v vs =>
    exact ⟨Nat.le_succ _, fun b k hb => alloc_out _ _ _ _ _ hb, .inl (Nat.le_refl _), alloc_ok _ _ _, alloc_elems _ _ _⟩

omit [Inhabited T] in
theorem unit_ret {o : Outcome (Hp T × Sl)} {w : Hp T × Sl} {r : Res T} (e : SliceAll.unit o = .ret (w, r)) : o = .ret w := by
  cases o with
  | ret x => simp only [SliceAll.unit, Outcome.bind_ret, Outcome.ret.injEq, Prod.mk.injEq] at e; rw [e.1]
  | panic => cases e
  | hang => cases e

theorem own_insert {h : Hp T} {s : Sl} (o : s.Ok h) {g1 g2 : Nat} {i : Int} {v : T} {h' : Hp T} {s' : Sl}
    (e : insert h g1 g2 s i v = .ret (h', s')) : Own h s h' s' :=
  own_splice (h := (h.alloc [v] 0).1) (v := (h.alloc [v] 0).2) o (Nat.le_succ _) (fun b k hb => alloc_out _ _ _ _ _ hb) (.inl (Nat.le_refl _)) e

theorem own_cut {h : Hp T} {s : Sl} (o : s.Ok h) {g1 g2 : Nat} {i j : Int} {h' : Hp T} {s' : Sl}
    (e : cut h g1 g2 s i j = .ret (h', s')) : Own h s h' s' :=
  own_splice (v := Sl.nil) o (Nat.le_refl _) (fun _ _ _ => rfl) (.inr rfl) e

theorem bind_ret_inv {α β : Type} {o : Outcome α} {f : α → Outcome β} {b : β} (e : o.bind f = .ret b) : ∃ a, o = .ret a ∧ f a = .ret b := by
  cases o with
  | ret a => exact ⟨a, rfl, e⟩
  | panic => cases e
  | hang => cases e

omit [Inhabited T] in
theorem own_store {h : Hp T} {s : Sl} (o : s.Ok h) {i : Int} {v : T} {h' : Hp T} (e : store h s i v = .ret h') : Own h s h' s := by
  unfold store at e
  split at e
  · cases e
    exact own_same o rfl fun b k hk => blit_out _ _ _ _ _ _ (by simp only [List.length_singleton]; omega)
  · cases e

theorem own_repeat (vs : List T) (gs : Nat → Nat) : ∀ (k : Nat) (h : Hp T) (r : Sl), r.Ok h →
    Own h r (repeatLoop vs gs k h r).1 (repeatLoop vs gs k h r).2
  | 0, h, r, o => own_refl o
  | k + 1, h, r, o => by
    have a := own_append o (gs k) vs
    exact a.trans (own_repeat vs gs k _ _ a.ok)

theorem own_rot {h : Hp T} {s : Sl} (o : s.Ok h) {g : Nat} {lo hi lo' hi' : Int} {h' : Hp T} {s' : Sl}
    (e : ((reslice s lo hi).bind fun a => (reslice s lo' hi').bind fun b => .ret (append h g a (elems h b))) = Outcome.ret (h', s')) :
    Own h s h' s' := by
  obtain ⟨a, ea, e⟩ := bind_ret_inv e
  obtain ⟨b, eb, e⟩ := bind_ret_inv e
  have o1 := own_reslice o ea
  have o2 := o1.trans (own_append o1.ok g (elems h b))
  have := Outcome.ret.inj e
  rw [this] at o2
  exact o2

/-- Every call keeps to the window of its slice. -/
theorem step_own {lim : Nat} {c : Choice} {h h' : Hp T} {s s' : Sl} (o : s.Ok h) {op : Op T} {r : Res T}
    (e : step lim c (h, s) op = .ret ((h', s'), r)) : Own h s h' s' := by
  cases op with
  | set i v =>
    obtain ⟨h1, e1, e2⟩ := bind_ret_inv (show (Slicex.set h s i v).bind _ = _ from e)
    cases e2
    unfold Slicex.set at e1
    split at e1
    · cases e1; exact own_refl o
    · exact own_store o e1
  | get i =>
    obtain ⟨h1, e1, e2⟩ := bind_ret_inv (show (Slicex.get h s i).bind _ = _ from e)
    cases e2; exact own_refl o
  | slice i j =>
    obtain ⟨h1, e1, e2⟩ := bind_ret_inv (show (Slicex.slice s i j).bind _ = _ from e)
    cases e2
    exact own_reslice o e1
  | splice i j vs =>
    obtain ⟨h1, h2, h3, _⟩ := args_own h vs
    exact own_splice o h1 h2 h3 (unit_ret e)
  | expand i vs =>
    obtain ⟨h1, h2, h3, _⟩ := args_own h vs
    exact own_splice o h1 h2 h3 (unit_ret e)
  | insert i v => exact own_insert o (unit_ret e)
  | cut i j => exact own_cut o (unit_ret e)
  | delete i => exact own_cut o (unit_ret e)
  | push v => exact own_insert o (unit_ret e)
  | unShift v => exact own_insert o (unit_ret e)
  | pop =>
    obtain ⟨p, e1, e2⟩ := bind_ret_inv (show (Slicex.pop h c.g1 c.g2 s).bind _ = _ from e)
    obtain ⟨⟨h1, s1⟩, x1⟩ := p
    cases e2
    unfold Slicex.pop at e1
    split at e1
    · cases e1; exact own_refl o
    · obtain ⟨x, _, e1⟩ := bind_ret_inv e1
      obtain ⟨y, e3, e1⟩ := bind_ret_inv e1
      cases e1
      exact own_cut o e3
  | shift =>
    obtain ⟨p, e1, e2⟩ := bind_ret_inv (show (Slicex.shift h c.g1 c.g2 s).bind _ = _ from e)
    obtain ⟨⟨h1, s1⟩, x1⟩ := p
    cases e2
    unfold Slicex.shift at e1
    split at e1
    · cases e1; exact own_refl o
    · obtain ⟨x, _, e1⟩ := bind_ret_inv e1
      obtain ⟨y, e3, e1⟩ := bind_ret_inv e1
      cases e1
      exact own_cut o e3
  | deleteReplace i =>
    have e1 := unit_ret e
    unfold deleteReplace at e1
    obtain ⟨v, _, e1⟩ := bind_ret_inv e1
    obtain ⟨h1, e2, e1⟩ := bind_ret_inv e1
    obtain ⟨s1, e3, e1⟩ := bind_ret_inv e1
    cases e1
    have o1 := own_store o e2
    exact o1.trans (own_reslice o1.ok e3)
  | reverse =>
    obtain ⟨h1, e1, e2⟩ := bind_ret_inv (show (Slicex.reverse h s).bind _ = _ from e)
    cases e2
    obtain ⟨h2, e2, hb, _, hf⟩ := reverseLoop_spec (s := s) s.len h 0 ((s.len : Int) - 1) (by omega) (by omega) (by omega)
    have e2' : Slicex.reverse h s = .ret h2 := by simpa [Slicex.reverse] using e2
    rw [e2'] at e1
    cases e1
    exact own_same o hb hf
  | rotate n =>
    have e1 := unit_ret e
    unfold rotate at e1
    split at e1
    · cases e1; exact own_refl o
    · split at e1
      · exact own_rot o e1
      · split at e1
        · exact own_rot o e1
        · cases e1; exact own_refl o
  | shuffle =>
    obtain ⟨h1, e1, e2⟩ := bind_ret_inv (show (Slicex.shuffle h s c.draw).bind _ = _ from e)
    cases e2
    obtain ⟨h2, e2, hb, _, hf⟩ := shuffleLoop_spec (s := s) c.draw s.len h (Nat.le_refl _)
    rw [Slicex.shuffle, e2] at e1
    cases e1
    exact own_same o hb hf
  | filter f =>
    have e1 := unit_ret e
    unfold Slicex.filter at e1
    obtain ⟨h2, n, e2, hb, hn, _, hf⟩ := filterLoop_spec (f := f) (s := s) s.len 0 0 h (by omega) (by omega)
    simp only [e2, Outcome.bind_ret] at e1
    obtain ⟨s1, e3, e1⟩ := bind_ret_inv e1
    cases e1
    have o1 := own_same o hb hf
    exact o1.trans (own_reslice o1.ok e3)
  | rep n =>
    have e1 := unit_ret e
    unfold rep makeSl at e1
    split at e1
    · simp only [Outcome.bind_ret, Outcome.ret.injEq] at e1
      generalize hal : h.alloc (List.replicate (0 : Int).toNat (default : T)) (wrap64 (s.len * n) - 0).toNat = q at e1
      have h2 : h.brk ≤ q.1.brk := by rw [← hal]; exact Nat.le_succ _
      have h3 : ∀ b k, b < h.brk → q.1.mem b k = h.mem b k := by rw [← hal]; exact fun b k hb => alloc_out _ _ _ _ _ hb
      have h4 : q.2.Ok q.1 := by rw [← hal]; exact alloc_ok _ _ _
      have h5 : h.brk ≤ q.2.arr := by rw [← hal]; exact Nat.le_refl _
      have o1 := own_repeat (elems q.1 s) c.gs n.toNat q.1 q.2 h4
      have e' : repeatLoop (elems q.1 s) c.gs n.toNat q.1 q.2 = (h', s') := e1
      rw [e'] at o1
      have o2 : Own h s q.1 q.2 := ⟨h2, fun b k hb _ => h3 b k hb, h4, .inr (.inl h5)⟩
      exact o2.trans o1
    · cases e1
  | extend n =>
    have e1 := unit_ret e
    unfold extend makeSl at e1
    simp only at e1
    split at e1
    · simp only [Outcome.bind_ret, Outcome.ret.injEq] at e1
      generalize hal : h.alloc (List.replicate (clamp n n).toNat (default : T)) (clamp n n - clamp n n).toNat = q at e1
      have h2 : h.brk ≤ q.1.brk := by rw [← hal]; exact Nat.le_succ _
      have h3 : ∀ b k, b < h.brk → q.1.mem b k = h.mem b k := by rw [← hal]; exact fun b k hb => alloc_out _ _ _ _ _ hb
      have o1 := own_mono o h2 h3
      have o2 := o1.trans (own_append o1.ok c.g1 (elems q.1 q.2))
      have e' : append q.1 c.g1 s (elems q.1 q.2) = (h', s') := e1
      rw [e'] at o2
      exact o2
    · cases e1
  | clear =>
    simp only [step] at e
    obtain ⟨s1, e1, e2⟩ := bind_ret_inv e
    cases e2
    exact own_reslice o e1
  | copy =>
    simp only [step, Outcome.ret.injEq, Prod.mk.injEq] at e
    obtain ⟨⟨rfl, rfl⟩, _⟩ := e
    refine own_mono o (append_brk _ _ _ _) fun b k hb => ?_
    exact append_out _ _ _ _ _ _ hb (by simp only; omega)
  | split ns =>
    obtain ⟨x, e1, e2⟩ := bind_ret_inv (show (Slicex.split s ns).bind _ = _ from e)
    cases e2; exact own_refl o
  | batch n =>
    obtain ⟨x, e1, e2⟩ := bind_ret_inv (show (Slicex.batch s n).bind _ = _ from e)
    cases e2; exact own_refl o
  | join _ _ => cases e; exact own_refl o
  | indexOf _ => cases e; exact own_refl o
  | contains _ => cases e; exact own_refl o
  | each => cases e; exact own_refl o
  | forEach => cases e; exact own_refl o
  | len => cases e; exact own_refl o
  | finalize => cases e; exact own_refl o

omit [Inhabited T] in
theorem Own.other {h h' : Hp T} {s s' t : Sl} (w : Own h s h' s') (ot : t.Ok h) (a : Apart s t) :
    elems h' t = elems h t ∧ Apart s' t := by
  have hl := ot.le
  unfold Apart at *
  have hw := w.win
  constructor
  · refine elems_congr fun k hk => ?_
    exact w.mem _ _ (ot.lt (by omega)) (by omega)
  · by_cases h0 : t.cap = 0
    · exact .inr (.inl h0)
    · have := ot.lt (by omega)
      omega

theorem Apart.symm {s t : Sl} (a : Apart s t) : Apart t s := by unfold Apart at *; omega

omit [Inhabited T] in
/-- A new slice is apart from all others. -/
theorem fresh_apart {h : Hp T} {s t : Sl} (ot : t.Ok h) (hs : h.brk ≤ s.arr ∨ s.cap = 0) : Apart s t := by
  unfold Apart
  by_cases h0 : t.cap = 0
  · exact .inr (.inl h0)
  · have := ot.lt (by omega)
    omega

theorem copy_own (h : Hp T) (g : Nat) (s : Sl) : h.brk ≤ (Slicex.copy h g s).1.brk ∧
    (∀ b k, b < h.brk → (Slicex.copy h g s).1.mem b k = h.mem b k) ∧
    (h.brk ≤ (Slicex.copy h g s).2.arr ∨ (Slicex.copy h g s).2.cap = 0) ∧ (Slicex.copy h g s).2.Ok (Slicex.copy h g s).1 ∧
    elems (Slicex.copy h g s).1 (Slicex.copy h g s).2 = elems h s := by
  unfold Slicex.copy
  refine ⟨append_brk _ _ _ _, fun b k hb => append_out _ _ _ _ _ _ hb (by simp only; omega), ?_, append_ok _ _ _ ⟨Nat.le_refl _, by simp⟩, ?_⟩
  · unfold append
    split
    · exact .inr rfl
    · exact .inl (Nat.le_refl _)
  · rw [append_elems]; simp [elems]

/-- `Splice` with a slice that is apart, or with the slice itself. -/
theorem splice_from {h : Hp T} {s v : Sl} (o : s.Ok h) (g1 g2 : Nat) (i j : Int) (hv : v = s ∨ Apart s v) :
    ∃ h' s', splice h g1 g2 s i j v = .ret (h', s') ∧ elems h' s' = spliceSpec (elems h s) i j (elems h v) ∧ s'.Ok h' ∧
      h.brk ≤ h'.brk ∧
      (s'.cap = 0 ∨ h.brk ≤ s'.arr ∨ (s'.arr = s.arr ∧ s.off ≤ s'.off ∧ s'.off + s'.cap ≤ s.off + s.cap)) ∧
      ∀ b k, b < h.brk → (b ≠ s.arr ∨ k < s.off ∨ s.off + s.cap ≤ k) → (b ≠ v.arr ∨ k < v.off + v.len ∨ v.off + v.cap ≤ k) →
        h'.mem b k = h.mem b k := by
  have hle := o.le
  have hlo : lo i j s.len ≤ s.len := Nat.le_trans (lo_le_hi i j s.len) (hi_le i j s.len)
  have hc : NoClash s v (lo i j s.len) (s.len - hi i j s.len) := by
    intro hm x h1 h2 ⟨h3, h4, h5⟩
    rcases hv with rfl | hv
    · omega
    · unfold Apart at hv
      omega
  obtain ⟨h', s', e, ok, hb, he, hf, _⟩ := splice_spec h g1 g2 i j o hc
  refine ⟨h', s', e, he, ok, hb, ?_, fun b k h1 h2 h3 => hf b k h1 (by omega) h3⟩
  unfold splice at e
  generalize clamp2 i j s.len = ij at e
  obtain ⟨i, j⟩ := ij
  simp only at e
  obtain ⟨a, ea, e⟩ := bind_ret_inv e
  obtain ⟨b, eb, e⟩ := bind_ret_inv e
  simp only [Outcome.ret.injEq] at e
  generalize ew : append h g1 v (elems h b) = w at e
  have h1 : h.brk ≤ w.1.brk := by rw [← ew]; exact append_brk _ _ _ _
  have w1 := (own_reslice o ea).win
  have oa := (own_reslice o ea).ok
  have w2 := (own_append (oa.mono h1) g2 (elems w.1 w.2)).win
  rw [e] at w2
  simp only at w2
  omega

/-- One command: its slice shows what the lists say, the others show what they did, and all stay apart. -/
theorem step_others {lim : Nat} {w w' : World T} {cmd : Cmd T} {r : Res T} (gd : Good w) (ap : AllApart w) (pl : cmd.Plain)
    (st : Step lim w cmd r w') :
    Good w' ∧ AllApart w' ∧ ∀ j, j ≠ cmd.about → shown w' j = shown w j := by
  have put : ∀ (i : Nat) (h' : Hp T) (s' : Sl), w.h.brk ≤ h'.brk → s'.Ok h' → (∀ j, j ≠ i → elems h' (w.s j) = elems w.h (w.s j) ∧ Apart s' (w.s j)) →
      Good (⟨h', Function.update w.s i s'⟩ : World T) ∧ AllApart (⟨h', Function.update w.s i s'⟩ : World T) ∧
      ∀ j, j ≠ i → shown (⟨h', Function.update w.s i s'⟩ : World T) j = shown w j := by
    intro i h' s' hb ok hap
    refine ⟨?_, ?_, fun j hj => ?_⟩
    · intro j
      by_cases e : j = i
      · subst e; simp only [Function.update_self]; exact ok
      · simp only [Function.update_of_ne e]; exact (gd j).mono hb
    · intro j k hjk
      by_cases e1 : j = i
      · subst e1
        simp only [Function.update_self, Function.update_of_ne (Ne.symm hjk)]
        exact (hap k (Ne.symm hjk)).2
      · by_cases e2 : k = i
        · subst e2
          simp only [Function.update_self, Function.update_of_ne hjk]
          exact (hap j hjk).2.symm
        · simp only [Function.update_of_ne e1, Function.update_of_ne e2]
          exact ap j k hjk
    · simp only [shown, Function.update_of_ne hj]
      exact (hap j hj).1
  have fresh : ∀ (h' : Hp T) (s' : Sl), (∀ b k, b < w.h.brk → h'.mem b k = w.h.mem b k) → (w.h.brk ≤ s'.arr ∨ s'.cap = 0) →
      ∀ j, elems h' (w.s j) = elems w.h (w.s j) ∧ Apart s' (w.s j) := by
    intro h' s' hm hs j
    refine ⟨elems_congr fun k hk => hm _ _ ((gd j).lt ?_), fresh_apart (gd j) hs⟩
    have := (gd j).le
    omega
  cases st with
  | call c e =>
    have ow := step_own (gd _) e
    exact put _ _ _ ow.brk ow.ok fun j hj => ow.other (gd j) (ap _ j (Ne.symm hj))
  | @new i vs =>
    obtain ⟨h1, h2, h3, h4, _⟩ := args_own w.h vs
    exact put _ _ _ h1 h4 fun j _ => fresh _ _ h2 h3 j
  | @copy i j g =>
    obtain ⟨h1, h2, h3, h4, _⟩ := copy_own w.h g (w.s j)
    exact put _ _ _ h1 h4 fun j _ => fresh _ _ h2 h3 j
  | newOf => exact pl.elim
  | @spliceFrom i a b k h' s' g1 g2 e =>
    have hv : w.s k = w.s i ∨ Apart (w.s i) (w.s k) := by
      by_cases hk : k = i
      · exact .inl (by rw [hk])
      · exact .inr (ap i k (Ne.symm hk))
    obtain ⟨h1, s1, e1, _, ok, hb, hw, hm⟩ := splice_from (gd i) g1 g2 a b hv
    rw [e1] at e
    cases e
    refine put i _ _ hb ok fun j hj => ?_
    have oj := gd j
    have hl := oj.le
    have hi := ap i j (Ne.symm hj)
    unfold Apart at hi
    constructor
    · refine elems_congr fun x hx => ?_
      refine hm _ _ (oj.lt (by omega)) (by omega) ?_
      by_cases hk : k = j
      · subst hk; omega
      · have := ap k j hk
        unfold Apart at this
        omega
    · unfold Apart
      by_cases h0 : (w.s j).cap = 0
      · exact .inr (.inl h0)
      · have := oj.lt (by omega)
        omega

/-- `New(x...)` too leaves what the others show. -/
theorem step_leaves {lim : Nat} {w w' : World T} {cmd : Cmd T} {r : Res T} (gd : Good w) (ap : AllApart w)
    (st : Step lim w cmd r w') : ∀ j, j ≠ cmd.about → shown w' j = shown w j := by
  by_cases pl : cmd.Plain
  · exact (step_others gd ap pl st).2.2
  · intro j hj
    cases st with
    | @newOf i k =>
      have hj : j ≠ i := hj
      simp only [shown, Function.update_of_ne hj]
    | call _ _ => exact (pl trivial).elim
    | new => exact (pl trivial).elim
    | copy _ => exact (pl trivial).elim
    | spliceFrom _ _ _ => exact (pl trivial).elim

/-- What the slice of a command shows. -/
theorem step_about {lim : Nat} (hlim : (lim : Int) < 2 ^ 63) {w w' : World T} {cmd : Cmd T} {r : Res T} (gd : Good w) (ap : AllApart w)
    (ft : Fits w cmd) (st : Step lim w cmd r w') : Does lim (shown w) cmd r (shown w') := by
  have ho := step_leaves gd ap st
  cases st with
  | @call i op h' s' r c e =>
    refine ⟨?_, ho⟩
    have hp : ¬ Panics lim (elems w.h (w.s i)) op := fun hp => by
      rw [step_panics lim c (gd i) op ft.2.2 hp] at e
      cases e
    obtain ⟨w', r', e', _, he⟩ := step_good lim hlim c (gd i) ft.1 op ft.2.1 ft.2.2 hp
    rw [e'] at e
    cases e
    refine ⟨hp, ?_⟩
    simpa only [shown, Function.update_self] using he
  | @new i vs =>
    refine ⟨?_, rfl, ho⟩
    simpa only [shown, Function.update_self] using (args_own w.h vs).2.2.2.2
  | @copy i j g =>
    refine ⟨?_, rfl, ho⟩
    simpa only [shown, Function.update_self] using (copy_own w.h g (w.s j)).2.2.2.2
  | newOf =>
    refine ⟨?_, rfl, ho⟩
    simp only [shown, Function.update_self]
  | @spliceFrom i a b k h' s' g1 g2 e =>
    have hv : w.s k = w.s i ∨ Apart (w.s i) (w.s k) := by
      by_cases hk : k = i
      · exact .inl (by rw [hk])
      · exact .inr (ap i k (Ne.symm hk))
    obtain ⟨h1, s1, e1, he, _⟩ := splice_from (gd i) g1 g2 a b hv
    rw [e1] at e
    cases e
    refine ⟨?_, rfl, ho⟩
    simpa only [shown, Function.update_self] using he

theorem start_good : Good (start : World T) := fun _ => Sl.nil_ok _

theorem start_apart : AllApart (start : World T) := fun _ _ _ => .inl rfl

theorem run_good {lim : Nat} {ok : World T → Cmd T → Prop} (hok : ∀ w cmd, ok w cmd → cmd.Plain) {w w' : World T}
    {t : List (Cmd T × Res T)} (gd : Good w) (ap : AllApart w) (rn : Run lim ok w t w') : Good w' ∧ AllApart w' := by
  induction rn with
  | nil => exact ⟨gd, ap⟩
  | cons hk st _ ih =>
    obtain ⟨h1, h2, _⟩ := step_others gd ap (hok _ _ hk) st
    exact ih h1 h2

end Verif.SliceSide
