import Verif.SlicePar.Link
/-!
# Calls stay in the piece; what every goroutine sees
-/
namespace Verif.SlicePar
open Verif.Go Verif.Slicex Verif.SliceAll Verif.SliceParts

variable {T α β : Type}

/-- The program uses only elements in `W`, at most `n` times, and returns only results in `Q`. -/
def Keep (W : Nat → Nat → Prop) (Q : α → Prop) : Nat → Prog T α → Prop
  | _, .done o => ∀ x, o = .ret x → Q x
  | n, .read a i k => W a i ∧ ∃ n', n = n' + 1 ∧ ∀ v, Keep W Q n' (k v)
  | n, .write a i _ k => W a i ∧ ∃ n', n = n' + 1 ∧ Keep W Q n' k

theorem Keep.mono {W : Nat → Nat → Prop} {Q : α → Prop} {p : Prog T α} : ∀ {n n' : Nat}, n ≤ n' → Keep W Q n p → Keep W Q n' p := by
  induction p with
  | done o => intro n n' _ h; exact h
  | read a i k ih =>
    rintro n n' hn ⟨hw, n1, rfl, h⟩
    exact ⟨hw, n' - 1, by omega, fun v => ih v (by omega) (h v)⟩
  | write a i v k ih =>
    rintro n n' hn ⟨hw, n1, rfl, h⟩
    exact ⟨hw, n' - 1, by omega, ih (by omega) h⟩

theorem Keep.bind {W : Nat → Nat → Prop} {Q : α → Prop} {R : β → Prop} {p : Prog T α} {f : α → Prog T β} {m : Nat}
    (hf : ∀ x, Q x → Keep W R m (f x)) : ∀ {n : Nat}, Keep W Q n p → Keep W R (n + m) (p.bind f) := by
  induction p with
  | done o =>
    intro n h
    cases o with
    | ret x => exact (hf x (h x rfl)).mono (by omega)
    | panic => exact fun x hx => (by cases hx)
    | hang => exact fun x hx => (by cases hx)
  | read a i k ih =>
    rintro n ⟨hw, n1, rfl, h⟩
    exact ⟨hw, n1 + m, by omega, fun v => ih v (h v)⟩
  | write a i v k ih =>
    rintro n ⟨hw, n1, rfl, h⟩
    exact ⟨hw, n1 + m, by omega, ih h⟩

theorem Keep.seq {W : Nat → Nat → Prop} {Q : α → Prop} {R : β → Prop} {p : Prog T α} {f : α → Prog T β} {n m k : Nat}
    (h : Keep W Q n p) (hf : ∀ x, Q x → Keep W R m (f x)) (hk : n + m ≤ k) : Keep W R k (p.bind f) := (h.bind hf).mono hk

theorem Keep.within {W : Nat → Nat → Prop} {Q : α → Prop} {p : Prog T α} : ∀ {n : Nat}, Keep W Q n p → Within n p := by
  induction p with
  | done o => intro n _; exact .done
  | read a i k ih =>
    rintro n ⟨_, n1, rfl, h⟩
    exact .read fun v => ih v (h v)
  | write a i v k ih =>
    rintro n ⟨_, n1, rfl, h⟩
    exact .write (ih h)

/-- A program is not its own continuation. -/
theorem ne_child (q : Prog T α) : ∀ (a i : Nat) (k : T → Prog T α) (v : T), k v = q → q ≠ .read a i k := by
  induction q with
  | done o => exact fun _ _ _ _ _ e => (by cases e)
  | write a i v k _ => exact fun _ _ _ _ _ e => (by cases e)
  | read a' i' k' ih =>
    intro a i k v h e
    cases e
    exact ih v a' i' k' v rfl h

/-- The elements of a piece. -/
def Win (p : Sl) (a i : Nat) : Prop := a = p.arr ∧ p.off ≤ i ∧ i < p.off + p.len

/-- A header that shows only elements of the piece. -/
structure Hdr (p s : Sl) : Prop where
  arr : s.arr = p.arr
  lo : p.off ≤ s.off
  hi : s.off + s.len ≤ p.off + p.len
  le : s.len ≤ s.cap
  cap : s.off + s.cap = p.off + p.cap

theorem Hdr.win {p s : Sl} (h : Hdr p s) {k : Nat} (hk : k < s.len) : Win p s.arr (s.off + k) :=
  ⟨h.arr, by have := h.lo; omega, by have := h.hi; omega⟩

theorem Hdr.cut {p s : Sl} (h : Hdr p s) {n : Nat} (hn : n ≤ s.len) : Hdr p { s with len := n } :=
  ⟨h.arr, h.lo, by have := h.hi; simp only; omega, by have := h.le; simp only; omega, h.cap⟩

theorem Hdr.reslice {p s s' : Sl} (h : Hdr p s) {i j : Int} (hj : j ≤ s.len) (e : Go.reslice s i j = .ret s') : Hdr p s' := by
  unfold Go.reslice at e
  split at e
  · cases e
    obtain ⟨h1, h2, h3, h4, h5⟩ := h
    constructor <;> simp only <;> omega
  · cases e

theorem keep_index {p s : Sl} (h : Hdr p s) (i : Int) : Keep (Win p) (fun _ : T => True) 1 (indexP s i) := by
  unfold indexP
  split
  · exact ⟨h.win (by omega), 0, rfl, fun v x _ => trivial⟩
  · exact fun x _ => trivial

theorem keep_store {p s : Sl} (h : Hdr p s) (i : Int) (v : T) : Keep (Win p) (fun _ => True) 1 (storeP s i v) := by
  unfold storeP
  split
  · exact ⟨h.win (by omega), 0, rfl, fun x _ => trivial⟩
  · exact fun x _ => trivial

theorem keep_swap {p s : Sl} (h : Hdr p s) (i j : Int) : Keep (Win p) (fun _ => True) 4 (swapP s i j : Prog T Unit) :=
  (keep_index h j).seq (fun _ _ => (keep_index h i).seq (fun _ _ => (keep_store h i _).seq (fun _ _ => keep_store h j _)
    (Nat.le_refl _)) (Nat.le_refl _)) (Nat.le_refl _)

theorem keep_load {p : Sl} : ∀ (n o : Nat), p.off ≤ o → o + n ≤ p.off + p.len →
    Keep (Win p) (fun l : List T => l.length = n) n (loadP p.arr o n)
  | 0, _, _, _ => fun x e => by cases e; rfl
  | n + 1, o, h1, h2 => ⟨⟨rfl, h1, by omega⟩, n, rfl, fun v => (keep_load n (o + 1) (by omega) (by omega)).seq (m := 0)
      (fun l hl x e => by cases e; simp [hl]) (Nat.le_refl _)⟩

theorem keep_save {p : Sl} : ∀ (vs : List T) (o : Nat), p.off ≤ o → o + vs.length ≤ p.off + p.len →
    Keep (Win p) (fun _ => True) vs.length (saveP p.arr o vs)
  | [], _, _, _ => fun _ _ => trivial
  | v :: vs, o, h1, h2 => by
    simp only [List.length_cons] at h2
    exact ⟨⟨rfl, h1, by omega⟩, vs.length, rfl, keep_save vs (o + 1) (by omega) (by omega)⟩

theorem keep_elems {p s : Sl} (h : Hdr p s) : Keep (Win p) (fun _ : List T => True) s.len (elemsP s) := by
  unfold elemsP
  rw [h.arr]
  have := keep_load (T := T) (p := p) s.len s.off h.lo h.hi
  have h2 := this.seq (R := fun _ => True) (f := fun x => .done (.ret x)) (m := 0) (fun x _ y _ => trivial) (Nat.le_refl _)
  have e : ∀ q : Prog T (List T), q.bind (fun x => .done (.ret x)) = q := by
    intro q
    induction q with
    | done o => cases o <;> rfl
    | read a i k ih => show Prog.read a i _ = _; congr 1; funext v; exact ih v
    | write a i v k ih => show Prog.write a i v _ = _; congr 1
  rwa [e] at h2

theorem keep_cut {p s : Sl} (h : Hdr p s) (i j : Int) : Keep (Win p) (fun s' => Hdr p s') (2 * (s.len - hi i j s.len)) (cutP s i j : Prog T Sl) := by
  have hlh := lo_le_hi i j s.len
  have hh := hi_le i j s.len
  simp only [cutP, clamp2_eq, Int.toNat_natCast]
  generalize lo i j s.len = L at *
  generalize Slicex.hi i j s.len = H at *
  have h1 := h.lo; have h2 := h.hi
  rw [h.arr]
  refine (keep_load (s.len - H) (s.off + H) (by omega) (by omega)).seq (m := s.len - H) (fun vs hv => ?_) (by omega)
  refine (keep_save vs (s.off + L) (by omega) (by omega)).seq (m := 0) (fun _ _ x e => ?_) (by omega)
  cases e
  rw [← h.arr]
  exact h.cut (by omega)

theorem keep_reverse {p s : Sl} (h : Hdr p s) : ∀ (k : Nat) (i j : Int),
    Keep (Win p) (fun _ => True) (2 * (j + 1 - i).toNat) (reverseP s k i j : Prog T Unit)
  | 0, _, _ => fun _ _ => trivial
  | k + 1, i, j => by
    unfold reverseP
    split
    · exact (keep_swap h i j).seq (fun _ _ => keep_reverse h k (i + 1) (j - 1)) (by omega)
    · exact fun _ _ => trivial

theorem keep_shuffle {p s : Sl} (h : Hdr p s) (draw : Nat → Nat) : ∀ (k : Nat),
    Keep (Win p) (fun _ => True) (4 * k) (shuffleP s draw k : Prog T Unit)
  | 0 => fun _ _ => trivial
  | k + 1 => by
    unfold shuffleP
    split
    · exact fun _ _ => trivial
    · exact (keep_swap h _ _).seq (fun _ _ => keep_shuffle h draw k) (by omega)

theorem keep_filter {p s : Sl} (h : Hdr p s) (f : T → Bool) : ∀ (r k n : Nat), k + r = s.len → n ≤ k →
    Keep (Win p) (fun n => n ≤ s.len) (2 * r) (filterP f s r k n)
  | 0, k, n, h1, h2 => fun x e => by cases e; omega
  | r + 1, k, n, h1, h2 => by
    refine ⟨h.win (by omega), 2 * r + 1, rfl, fun v => ?_⟩
    simp only
    split
    · exact (keep_store h n v).seq (fun _ _ => keep_filter h f r (k + 1) (n + 1) (by omega) (by omega)) (by omega)
    · exact (keep_filter h f r (k + 1) n (by omega) (by omega)).mono (by omega)

theorem keep_find {p s : Sl} (h : Hdr p s) (f : T → Bool) : ∀ (r k : Nat), k + r = s.len →
    Keep (Win p) (fun _ => True) r (findP f s r k)
  | 0, _, _ => fun _ _ => trivial
  | r + 1, k, h1 => by
    refine ⟨h.win (by omega), r, rfl, fun v => ?_⟩
    simp only
    split
    · exact fun _ _ => trivial
    · exact keep_find h f r (k + 1) (by omega)

variable [Inhabited T]

/-- A call that adds nothing uses only elements of the piece, at most four times per element. -/
theorem keep_prog {p s : Sl} (h : Hdr p s) (draw : Nat → Nat) (op : Op T) (ht : Tame op) :
    Keep (Win p) (fun x => Hdr p x.1) (4 * s.len) (prog draw s op) := by
  have hd : ∀ (n : Nat) (r : Res T), Keep (Win p) (fun x : Sl × Res T => Hdr p x.1) n (.done (.ret (s, r)) : Prog T (Sl × Res T)) :=
    fun _ _ x e => by cases e; exact h
  have hd' : ∀ (n : Nat) (r : Res T) (s' : Sl), Hdr p s' →
      Keep (Win p) (fun x : Sl × Res T => Hdr p x.1) n (.done (.ret (s', r)) : Prog T (Sl × Res T)) :=
    fun _ _ _ h x e => by cases e; exact h
  have hrs : ∀ (n : Nat) (i j : Int), j ≤ s.len →
      Keep (Win p) (fun x : Sl × Res T => Hdr p x.1) n (.done ((reslice s i j).bind fun s => .ret (s, .done)) : Prog T (Sl × Res T)) := by
    intro n i j hj x e
    cases hr : reslice s i j with
    | ret s' => rw [hr] at e; cases e; exact h.reslice hj hr
    | panic => rw [hr] at e; cases e
    | hang => rw [hr] at e; cases e
  cases op with
  | set i v =>
    simp only [prog]
    split
    · exact hd _ _
    · exact (keep_store h _ v).seq (m := 0) (fun _ _ => hd _ _) (by omega)
  | get i =>
    simp only [prog]
    split
    · exact hd _ _
    · exact (keep_index h _).seq (m := 0) (fun _ _ => hd _ _) (by omega)
  | slice i j =>
    simp only [prog, Slicex.slice, clamp2_eq]
    exact hrs _ _ _ (by have := hi_le i (if j < 0 then wrap64 (s.len + j) else j) s.len; omega)
  | cut i j =>
    exact (keep_cut h i j).seq (m := 0) (fun s' hs => hd' _ _ s' hs) (by omega)
  | delete i =>
    exact (keep_cut h i _).seq (m := 0) (fun s' hs => hd' _ _ s' hs) (by omega)
  | pop =>
    simp only [prog]
    split
    · exact hd _ _
    · exact (keep_index h _).seq (fun r _ => (keep_cut h _ _).seq (m := 0) (fun s' hs => hd' _ _ s' hs) (Nat.le_refl _)) (by omega)
  | shift =>
    simp only [prog]
    split
    · exact hd _ _
    · exact (keep_index h _).seq (fun r _ => (keep_cut h _ _).seq (m := 0) (fun s' hs => hd' _ _ s' hs) (Nat.le_refl _)) (by omega)
  | deleteReplace i =>
    simp only [prog]
    by_cases h0 : s.len = 0
    · rw [show (indexP s (s.len - 1) : Prog T T) = .done .panic from if_neg (by omega)]
      exact fun x e => (by cases e)
    · exact (keep_index h _).seq (fun v _ => (keep_store h _ v).seq (m := 0) (fun _ _ => hrs _ _ _ (by omega)) (Nat.le_refl _)) (by omega)
  | reverse => exact (keep_reverse h _ _ _).seq (m := 0) (fun _ _ => hd _ _) (by omega)
  | shuffle => exact (keep_shuffle h draw _).seq (m := 0) (fun _ _ => hd _ _) (by omega)
  | filter f => exact (keep_filter h f s.len 0 0 (by omega) (by omega)).seq (m := 0) (fun n hn => hrs _ _ _ (by omega)) (by omega)
  | clear => exact hrs _ _ _ (by omega)
  | copy => exact (keep_elems h).seq (m := 0) (fun _ _ => hd _ _) (by omega)
  | join fmt sep => exact (keep_elems h).seq (m := 0) (fun _ _ => hd _ _) (by omega)
  | indexOf f => exact (keep_find h f s.len 0 (by omega)).seq (m := 0) (fun _ _ => hd _ _) (by omega)
  | contains f => exact (keep_find h f s.len 0 (by omega)).seq (m := 0) (fun _ _ => hd _ _) (by omega)
  | each => exact (keep_elems h).seq (m := 0) (fun _ _ => hd _ _) (by omega)
  | forEach => exact (keep_elems h).seq (m := 0) (fun _ _ => hd _ _) (by omega)
  | len => exact hd _ _
  | _ => exact ht.elim

/-! ## The invariant -/

theorem seq_snoc {lim : Nat} {l l' l'' : List T} {t : List (Op T × Res T)} {op : Op T} {r : Res T} (h : Seq lim l t l')
    (d : Does lim l' op l'' r) : Seq lim l (t ++ [(op, r)]) l'' := by
  induction h with
  | nil l => exact .cons d (.nil _)
  | cons d' _ ih => exact .cons d' (ih d)

omit [Inhabited T] in
theorem shown_congr {m m' : Cells T} {s : Sl} (h : ∀ k, k < s.len → m s.arr (s.off + k) = m' s.arr (s.off + k)) : shown m s = shown m' s :=
  List.map_congr_left fun k hk => h k (List.mem_range.mp hk)

/-- What holds of a goroutine with piece `p`: there is a memory `g` that it alone would have made, which agrees with the real one on the
piece; `g0` is that memory before the present call. -/
def Own (lim : Nat) (h : Hp T) (p : Sl) (m : Cells T) (l : Loc T) : Prop :=
  ∃ g g0 : Cells T, (∀ a i, Win p a i → g a i = m a i) ∧ Hdr p l.hdr ∧ Seq lim (shown h.mem p) l.log (shown g0 l.hdr) ∧
    (l.cur = none → g = g0) ∧
    ∀ op pr, l.cur = some (op, pr) → Fine (fun _ => Tame) l.hdr op ∧ Keep (Win p) (fun x => Hdr p x.1) (4 * l.hdr.len) pr ∧
      ∃ draw, exec pr g = exec (prog draw l.hdr op) g0

theorem own_start (lim : Nat) {h : Hp T} {p : Sl} (o : p.Ok h) : Own lim h p h.mem ⟨p, [], none⟩ :=
  ⟨h.mem, h.mem, fun _ _ _ => rfl, ⟨rfl, Nat.le_refl _, Nat.le_refl _, o.le, rfl⟩, .nil _, fun _ => rfl, fun _ _ e => (by cases e)⟩

/-- Writing outside the piece. -/
theorem Own.other {lim : Nat} {h : Hp T} {p : Sl} {m m' : Cells T} {l : Loc T} (w : Own lim h p m l)
    (hm : ∀ a i, Win p a i → m' a i = m a i) : Own lim h p m' l := by
  obtain ⟨g, g0, h1, h2⟩ := w
  exact ⟨g, g0, fun a i ha => by rw [h1 a i ha, hm a i ha], h2⟩

/-- How a call of the goroutine ends. -/
theorem call_ends {lim : Nat} (hlim : (lim : Int) < 2 ^ 63) {h : Hp T} {p : Sl} (o : p.Ok h) (hl : (p.len : Int) < 2 ^ 63) {s : Sl}
    (hs : Hdr p s) {op : Op T} (hf : Fine (fun _ => Tame) s op) (draw : Nat → Nat) (g0 : Cells T) :
    (∃ g, exec (prog draw s op) g0 = (g, .panic) ∧ Panics lim (shown g0 s) op) ∨
    ∃ g s' r, exec (prog draw s op) g0 = (g, .ret (s', r)) ∧ Does lim (shown g0 s) op (shown g s') r := by
  have hlo := hs.lo; have hhi := hs.hi; have hcap := hs.cap
  have os : s.Ok (⟨g0, h.brk⟩ : Hp T) := ⟨hs.le, fun hc => by rw [hs.arr]; exact o.lt (by omega)⟩
  have lk := lk_prog lim os ⟨0, 0, fun _ => 0, draw⟩ op hf.1
  have kp := keep_prog hs draw op hf.1
  simp only at lk
  rcases C127_step lim hlim ⟨0, 0, fun _ => 0, draw⟩ (⟨g0, h.brk⟩ : Hp T) s os (by omega) op hf.2.1 hf.2.2 with ⟨hp, e⟩ | ⟨h', s', r, e, o', d⟩
  · rw [e] at lk
    unfold Lk at lk
    generalize exec (prog draw s op) g0 = x at lk
    obtain ⟨g, o⟩ := x
    cases o with
    | ret x => exact lk.elim
    | panic => exact Or.inl ⟨g, rfl, hp⟩
    | hang => exact lk.elim
  · rw [e] at lk
    have hk : ∀ g x, exec (prog draw s op) g0 = (g, .ret x) → Hdr p x.1 := by
      intro g x ex
      have : ∀ (q : Prog T (Sl × Res T)) (n : Nat) (m : Cells T), Keep (Win p) (fun x => Hdr p x.1) n q → exec q m = (g, .ret x) → Hdr p x.1 := by
        intro q
        induction q with
        | done o =>
          intro n m k e
          simp only [exec] at e
          cases e
          exact k x rfl
        | read a i k ih => rintro n m ⟨_, n', rfl, k⟩ e; exact ih _ _ _ (k _) e
        | write a i v k ih => rintro n m ⟨_, n', rfl, k⟩ e; exact ih _ _ k e
      exact this _ _ _ kp ex
    unfold Lk at lk
    generalize exec (prog draw s op) g0 = x at lk hk
    obtain ⟨g, oc⟩ := x
    cases oc with
    | ret x =>
      obtain ⟨hx, hm⟩ := lk
      simp only at hx hm
      subst hx
      have hh := hk g _ rfl
      refine Or.inr ⟨g, s', r, rfl, ?_⟩
      have : shown g s' = elems h' s' := by
        refine shown_congr (m' := h'.mem) fun k hk' => hm _ _ ?_
        have h1 := hh.arr; have h2 := hh.hi; have h3 := hh.lo; have h4 := hh.le; have h5 := hh.cap
        simp only at h1 h2 h3 h4 h5
        rw [h1]
        exact o.lt (by omega)
      rw [this]; exact d
    | panic => exact lk.elim
    | hang => exact lk.elim

/-- A step of the goroutine itself. -/
theorem Own.move {lim : Nat} (hlim : (lim : Int) < 2 ^ 63) {h : Hp T} {p : Sl} (o : p.Ok h) (hl : (p.len : Int) < 2 ^ 63)
    {m m' : Cells T} {l l' : Loc T} (w : Own lim h p m l) (st : Move (Fine fun _ => Tame) (m, l) (m', l')) :
    Own lim h p m' l' ∧ ∀ a i, ¬ Win p a i → m' a i = m a i := by
  obtain ⟨g, g0, h1, h2, h3, h4, h5⟩ := w
  cases st with
  | begin draw hok =>
    refine ⟨⟨g, g0, h1, h2, h3, fun e => (by cases e), fun op pr e => ?_⟩, fun _ _ _ => rfl⟩
    cases e
    exact ⟨hok, keep_prog h2 draw _ hok.1, draw, by rw [h4 rfl]⟩
  | read =>
    obtain ⟨hf, ⟨hw, n', hn, hk⟩, draw, he⟩ := h5 _ _ rfl
    refine ⟨⟨g, g0, h1, h2, h3, fun e => (by cases e), fun op pr e => ?_⟩, fun _ _ _ => rfl⟩
    cases e
    refine ⟨hf, (hk _).mono (by simp only at hn ⊢; omega), draw, ?_⟩
    rw [← he, exec, h1 _ _ hw]
  | @write _ _ _ _ a i v k =>
    obtain ⟨hf, ⟨hw, n', hn, hk⟩, draw, he⟩ := h5 _ _ rfl
    refine ⟨⟨put g a i v, g0, fun b j hb => ?_, h2, h3, fun e => (by cases e), fun op pr e => ?_⟩, fun b j hb => ?_⟩
    · simp only [put]
      split
      · rfl
      · exact h1 b j hb
    · cases e
      exact ⟨hf, hk.mono (by simp only at hn ⊢; omega), draw, by rw [← he]; rfl⟩
    · simp only [put]
      rw [if_neg]
      rintro ⟨rfl, rfl⟩
      exact hb hw
  | @finish _ s log op s' r =>
    obtain ⟨hf, hk, draw, he⟩ := h5 _ _ rfl
    refine ⟨⟨g, g, h1, hk _ rfl, ?_, fun _ => rfl, fun op pr e => (by cases e)⟩, fun _ _ _ => rfl⟩
    rcases call_ends hlim o hl h2 hf draw g0 with ⟨g', e, _⟩ | ⟨g', s'', r', e, d⟩
    · rw [← he] at e; cases e
    · rw [← he] at e; cases e
      exact seq_snoc h3 d

/-- Different pieces have no element in common. -/
theorem win_apart {s : Sl} {r : List Sl} (w : Wins s 0 r s.len) {t t' : Nat} {p q : Sl} (hp : r[t]? = some p) (hq : r[t']? = some q)
    (hne : t ≠ t') {a i : Nat} (h1 : Win p a i) (h2 : Win q a i) : False := by
  obtain ⟨_, h3, h4⟩ := h1
  obtain ⟨_, h5, h6⟩ := h2
  rcases Nat.lt_or_gt_of_ne hne with hlt | hlt
  · have := w.before hp hq hlt; omega
  · have := w.before hq hp hlt; omega

omit [Inhabited T] in
theorem piece_ok {h : Hp T} {s : Sl} {r : List Sl} (o : s.Ok h) (w : Wins s 0 r s.len) {t : Nat} {p : Sl} (hp : r[t]? = some p) :
    p.Ok h ∧ p.len ≤ s.len := by
  obtain ⟨h1, h2, h3, h4⟩ := w.get hp
  have h5 := h4 o.le
  have h6 := o.le
  exact ⟨⟨by omega, fun hc => by rw [h1]; exact o.lt (by omega)⟩, by omega⟩

/-- Every goroutine has what it would have alone; elements outside all pieces are as they were. -/
theorem own_reach {lim : Nat} (hlim : (lim : Int) < 2 ^ 63) {h : Hp T} {s : Sl} {r : List Sl} (o : s.Ok h) (hl : (s.len : Int) < 2 ^ 63)
    (w : Wins s 0 r s.len) {x : St T} (hx : Reach (Fine fun _ => Tame) h r x) :
    (∀ t p, r[t]? = some p → Own lim h p x.mem (x.loc t)) ∧ ∀ a i, (∀ p ∈ r, ¬ Win p a i) → x.mem a i = h.mem a i := by
  induction hx with
  | start =>
    refine ⟨fun t p hp => ?_, fun _ _ _ => rfl⟩
    simp only [List.getD, hp, Option.getD_some]
    exact own_start lim (piece_ok o w hp).1
  | @step x y _ st ih =>
    obtain ⟨i1, i2⟩ := ih
    cases st with
    | @mk t m l ht mv =>
      obtain ⟨q, hq⟩ : ∃ q, r[t]? = some q := ⟨r[t], List.getElem?_eq_getElem ht⟩
      have hok := piece_ok o w hq
      have := (i1 t q hq).move hlim hok.1 (by omega) mv
      refine ⟨fun t' p hp => ?_, fun a i ha => ?_⟩
      · simp only
        by_cases e : t' = t
        · subst e
          rw [hq] at hp; cases hp
          rw [if_pos rfl]
          exact this.1
        · rw [if_neg e]
          exact (i1 t' p hp).other fun a i ha => this.2 a i fun hb => win_apart w hp hq e ha hb
      · show m a i = _
        rw [this.2 a i (ha q (List.mem_of_getElem? hq)), i2 a i ha]

end Verif.SlicePar
