import Verif.SlicePar.Lemmas
/-!
# C159: goroutines can work on the pieces of `Split` and `Batch` at the same time
-/
namespace Verif.SlicePar
open Verif.Go Verif.Slicex Verif.SliceAll Verif.SliceParts

variable {T : Type} [Inhabited T]

/-- **C159 (full statement).** Goroutines that call methods on different pieces of a slice at the same time each see a list of their
own, and there is no data race; also when they add elements. -/
def C159_full : Prop := ∀ (T : Type) [Inhabited T], Alone (T := T) TameOrPush ∧
  ∀ (h : Hp T) (s : Sl) (r : List Sl), s.Ok h → (s.len : Int) < 2 ^ 63 → Pieces s r → ∀ x, Reach (Fine TameOrPush) h r x → ¬ Race x

/-- **C159, what does hold**: with the methods that add nothing, the results of a goroutine's calls and what its slice shows after them
are those of calls on a list of its own that starts with the elements of its piece, whatever the others do in the meantime. Missing from
the full claim: adding elements. -/
theorem C159_partial : Alone (T := T) fun _ => Tame := by
  intro lim h s r hlim o hl w x hx t p hp hc
  obtain ⟨g, g0, h1, h2, h3, h4, _⟩ := (own_reach hlim o hl (w.wins o hl) hx).1 t p hp
  have e : shown x.mem (x.loc t).hdr = shown g0 (x.loc t).hdr := by
    rw [← h4 hc]
    exact shown_congr fun k hk => (h1 _ _ (h2.win hk)).symm
  rw [e]; exact h3

/-- **C159, no data race**: two goroutines are never about to use the same element, whether to read or to write it. -/
theorem C159_no_race {h : Hp T} {s : Sl} {r : List Sl} (o : s.Ok h) (hl : (s.len : Int) < 2 ^ 63) (w : Pieces s r) {x : St T}
    (hx : Reach (Fine fun _ => Tame) h r x) {t t' : Nat} (ht : t < r.length) (ht' : t' < r.length) (hne : t ≠ t') {b b' : Bool} {a i : Nat}
    (h1 : next (x.loc t) = some (b, a, i)) : next (x.loc t') ≠ some (b', a, i) := by
  intro h2
  have hw := w.wins o hl
  have key : ∀ t p b, r[t]? = some p → next (x.loc t) = some (b, a, i) → Win p a i := by
    intro t p b hp hn
    obtain ⟨g, g0, _, _, _, _, h5⟩ := (own_reach (lim := 0) (by decide) o hl hw hx).1 t p hp
    unfold next at hn
    split at hn
    · rename_i e
      cases hn
      exact (h5 _ _ e).2.1.1
    · rename_i e
      cases hn
      exact (h5 _ _ e).2.1.1
    · cases hn
  exact win_apart hw (List.getElem?_eq_getElem ht) (List.getElem?_eq_getElem ht') hne
    (key t _ b (List.getElem?_eq_getElem ht) h1) (key t' _ b' (List.getElem?_eq_getElem ht') h2)

/-- **C159, no data race**, in the words of the specification. -/
theorem C159_never {h : Hp T} {s : Sl} {r : List Sl} (o : s.Ok h) (hl : (s.len : Int) < 2 ^ 63) (w : Pieces s r) {x : St T}
    (hx : Reach (Fine fun _ => Tame) h r x) : ¬ Race x := by
  have idle : ∀ {x : St T}, Reach (Fine fun _ => Tame) h r x → ∀ t, r.length ≤ t → next (x.loc t) = none := by
    intro x hx
    induction hx with
    | start => intro t _; rfl
    | step _ st ih =>
      intro t ht
      cases st with
      | mk hlt mv =>
        have : t ≠ _ := fun e => absurd (e ▸ hlt) (Nat.not_lt.2 ht)
        simp only [if_neg this]
        exact ih t ht
  rintro ⟨t, t', b, b', a, i, hne, h1, h2, _⟩
  have lt : ∀ {t y}, next (x.loc t) = some y → t < r.length := fun {t y} e =>
    Nat.lt_of_not_le fun hle => by rw [idle hx t hle] at e; cases e
  exact C159_no_race o hl w hx (lt h1) (lt h2) hne h1 h2

/-- **C159, elsewhere**: elements that are in no piece stay as they are. -/
theorem C159_elsewhere {h : Hp T} {s : Sl} {r : List Sl} (o : s.Ok h) (hl : (s.len : Int) < 2 ^ 63) (w : Pieces s r) {x : St T}
    (hx : Reach (Fine fun _ => Tame) h r x) {a i : Nat} (hi : a ≠ s.arr ∨ i < s.off ∨ s.off + s.len ≤ i) : x.mem a i = h.mem a i := by
  refine (own_reach (lim := 0) (by decide) o hl (w.wins o hl) hx).2 a i fun p hp hw => ?_
  obtain ⟨t, ht⟩ := List.mem_iff_getElem?.1 hp
  obtain ⟨h1, h2, h3, _⟩ := (w.wins o hl).get ht
  obtain ⟨e, h4, h5⟩ := hw
  rw [h1] at e
  rcases hi with hi | hi | hi
  · exact hi e
  · omega
  · omega

/-- **C159, calls end**: a goroutine in a call has at most four reads or writes per element of its slice left, which it can make without
waiting for anybody; the call does not hang; and if it panics, it is one that panics on the list (`DeleteReplace`, C27). -/
theorem C159_ends (lim : Nat) (hlim : (lim : Int) < 2 ^ 63) {h : Hp T} {s : Sl} {r : List Sl} (o : s.Ok h) (hl : (s.len : Int) < 2 ^ 63)
    (w : Pieces s r) {x : St T} (hx : Reach (Fine fun _ => Tame) h r x) {t : Nat} {p : Sl} (hp : r[t]? = some p) {op : Op T}
    {pr : Prog T (Sl × Res T)} (hc : (x.loc t).cur = some (op, pr)) :
    Within (4 * (x.loc t).hdr.len) pr ∧ pr ≠ .done .hang ∧
      (pr = .done .panic → ∃ l, Seq lim (shown h.mem p) (x.loc t).log l ∧ Panics lim l op) ∧
      (pr ≠ .done .panic → ∃ y, Step (Fine fun _ => Tame) r.length x y ∧ (y.loc t).cur ≠ (x.loc t).cur) := by
  have hw := w.wins o hl
  have hok := piece_ok o hw hp
  obtain ⟨g, g0, h1, h2, h3, _, h5⟩ := (own_reach hlim o hl hw hx).1 t p hp
  obtain ⟨hf, hk, draw, he⟩ := h5 op pr hc
  have ht : t < r.length := by
    rcases Nat.lt_or_ge t r.length with h | h
    · exact h
    · rw [List.getElem?_eq_none h] at hp; cases hp
  have hh : pr ≠ .done .hang := by
    rintro rfl
    rcases call_ends hlim hok.1 (by omega) h2 hf draw g0 with ⟨g', e, _⟩ | ⟨g', s', r', e, _⟩
    · rw [← he] at e; cases e
    · rw [← he] at e; cases e
  refine ⟨hk.within, hh, ?_, fun hnp => ?_⟩
  · rintro rfl
    rcases call_ends hlim hok.1 (by omega) h2 hf draw g0 with ⟨g', e, hp⟩ | ⟨g', s', r', e, _⟩
    · exact ⟨_, h3, hp⟩
    · rw [← he] at e; cases e
  · have go : ∀ m l, Move (Fine fun _ => Tame) (x.mem, x.loc t) (m, l) → l.cur ≠ (x.loc t).cur →
        ∃ y, Step (Fine fun _ => Tame) r.length x y ∧ (y.loc t).cur ≠ (x.loc t).cur := fun m l mv hne =>
      ⟨_, .mk ht mv, by simpa using hne⟩
    generalize x.loc t = l at *
    obtain ⟨s1, log, cur⟩ := l
    simp only at hc
    subst hc
    match pr, hnp, hh, go with
    | .done (.ret (s', r')), _, _, go => exact go _ _ .finish (by simp)
    | .read a i k, _, _, go =>
      refine go _ _ .read fun e => ?_
      have e : k (x.mem a i) = .read a i k := (Prod.mk.inj (Option.some.inj e)).2
      exact ne_child _ a i k _ rfl e
    | .write a i v k, _, _, go =>
      refine go _ _ .write fun e => ?_
      have e : k = .write a i v k := (Prod.mk.inj (Option.some.inj e)).2
      have := congrArg sizeOf e
      simp at this
    | .done .panic, h, _, _ => exact absurd rfl h
    | .done .hang, _, h, _ => exact absurd rfl h

/-- **C159, the whole**: when all goroutines are between calls and none has given up part of its piece (they called `Set`, `Get`, `Reverse`,
`Shuffle` and the like), the slice that was split shows what the goroutines made of their lists, one after the other. -/
theorem C159_whole (lim : Nat) (hlim : (lim : Int) < 2 ^ 63) {h : Hp T} {s : Sl} {r : List Sl} (o : s.Ok h) (hl : (s.len : Int) < 2 ^ 63)
    (w : Pieces s r) {x : St T} (hx : Reach (Fine fun _ => Tame) h r x) (hi : ∀ t, (x.loc t).cur = none)
    (hh : ∀ t p, r[t]? = some p → (x.loc t).hdr = p) :
    ∃ ls : List (List T), ls.length = r.length ∧ shown x.mem s = ls.flatten ∧
      ∀ (t : Nat) (p : Sl) (l : List T), r[t]? = some p → ls[t]? = some l → Seq lim (shown h.mem p) (x.loc t).log l := by
  refine ⟨r.map (shown x.mem), by simp, ?_, fun t p l hp hl' => ?_⟩
  · have key : ∀ {a b l}, Wins s a l b → b ≤ s.len → (l.map (shown x.mem)).flatten = ((shown x.mem s).take b).drop a := by
      intro a b l w
      induction w with
      | nil => intro _; simp
      | @cons a b c l h1 h2 w' ih =>
        intro hc
        have hbc := w'.le
        rw [List.map_cons, List.flatten_cons, ih hc]
        have e := window_elems (⟨x.mem, 0⟩ : Hp T) s a b (s.cap - a) (by omega)
        have e' : shown x.mem ⟨s.arr, s.off + a, b - a, s.cap - a⟩ = ((shown x.mem s).take b).drop a := e
        rw [e']
        have h3 : ((shown x.mem s).take b).drop a = (((shown x.mem s).take c).take b).drop a := by
          rw [List.take_take, Nat.min_eq_left hbc]
        rw [h3]
        have h4 : ∀ m : List T, (m.take b).drop a ++ m.drop b = m.drop a := by
          intro m
          rw [List.drop_take]
          have : m.drop b = (m.drop a).drop (b - a) := by rw [List.drop_drop]; congr 1; omega
          rw [this, List.take_append_drop]
        exact h4 _
    rw [key (w.wins o hl) (Nat.le_refl _), List.drop_zero, List.take_of_length_le (by simp [shown])]
  · rw [List.getElem?_map, hp] at hl'
    cases hl'
    have := C159_partial lim h s r hlim o hl w x hx t p hp (hi t)
    rwa [hh t p hp] at this

/-! ## The full statement is false -/

/-- Ten numbers in an array. -/
def mem0 : Hp Nat := ⟨fun _ i => i + 10, 1⟩

/-- The first four of them. -/
def sl0 : Sl := ⟨0, 0, 4, 10⟩

/-- In two halves. -/
def halves : List Sl := [⟨0, 0, 2, 10⟩, ⟨0, 2, 2, 8⟩]

theorem halves_pieces : Pieces sl0 halves := .batch 2 rfl

theorem sl0_ok : sl0.Ok mem0 := ⟨by decide, fun _ => by decide⟩

/-- **C159, `Push`**: it writes behind the end of the piece, where the next piece begins; that goroutine may be reading there at the
moment, and finds the element pushed by the other. -/
theorem C159_push : ∃ x y : St Nat, Reach (Fine TameOrPush) mem0 halves x ∧ Race x ∧
    Reach (Fine TameOrPush) mem0 halves y ∧ (y.loc 0).log = [(.push 7, .done)] ∧ (y.loc 1).log = [(.get 0, .val 7)] ∧
    shown mem0.mem ⟨0, 2, 2, 8⟩ = [12, 13] := by
  have h0 := Reach.start (ok := Fine TameOrPush) (h := mem0) (r := halves)
  have h1 := h0.step (.mk (t := 0) (by decide) (.begin (op := .push 7) (fun _ => 0) ⟨.inr ⟨⟨7, rfl⟩, by decide⟩, trivial, trivial⟩))
  have h2 := h1.step (.mk (t := 1) (by decide) (.begin (op := .get 0) (fun _ => 0) ⟨.inl trivial, show InInt64 0 by decide, trivial⟩))
  have h3 := h2.step (.mk (t := 0) (by decide) .write)
  have h4 := h3.step (.mk (t := 0) (by decide) .finish)
  have h5 := h4.step (.mk (t := 1) (by decide) .read)
  have h6 := h5.step (.mk (t := 1) (by decide) .finish)
  exact ⟨_, _, h2, ⟨0, 1, true, false, 0, 2, by decide, rfl, rfl, .inl rfl⟩, h6, rfl, rfl, rfl⟩

/-- **C159 is false** for methods that add elements. -/
theorem C159_refuted : ¬ C159_full := by
  intro hf
  obtain ⟨x, y, hx, hr, _⟩ := C159_push
  exact (hf Nat).2 mem0 sl0 halves sl0_ok (by decide) halves_pieces x hx hr

/-- The hypotheses of the other theorems are met with two goroutines in the middle of calls that write: one is reversing its half, the other
removing an element from its half. -/
example : ∃ x : St Nat, Reach (Fine fun _ => Tame) mem0 halves x ∧ sl0.Ok mem0 ∧ (sl0.len : Int) < 2 ^ 63 ∧ Pieces sl0 halves ∧
    next (x.loc 0) = some (true, 0, 0) ∧ next (x.loc 1) = some (true, 0, 2) := by
  have h0 := Reach.start (ok := Fine fun _ => Tame) (h := mem0) (r := halves)
  have h1 := h0.step (.mk (t := 0) (by decide) (.begin (op := .reverse) (fun _ => 0) ⟨trivial, trivial, trivial⟩))
  have h2 := h1.step (.mk (t := 1) (by decide) (.begin (op := .cut 0 1) (fun _ => 0)
    ⟨trivial, show InInt64 0 ∧ InInt64 1 by decide, trivial⟩))
  have h3 := h2.step (.mk (t := 0) (by decide) .read)
  have h4 := h3.step (.mk (t := 1) (by decide) .read)
  have h5 := h4.step (.mk (t := 0) (by decide) .read)
  exact ⟨_, h5, sl0_ok, by decide, halves_pieces, rfl, rfl⟩

/-- And those of `C159_whole` after one goroutine has reversed its half. -/
example : ∃ x : St Nat, Reach (Fine fun _ => Tame) mem0 halves x ∧ (∀ t, (x.loc t).cur = none) ∧
    (∀ t p, halves[t]? = some p → (x.loc t).hdr = p) ∧ (x.loc 0).log = [(.reverse, .done)] ∧ shown x.mem sl0 = [11, 10, 12, 13] := by
  have h0 := Reach.start (ok := Fine fun _ => Tame) (h := mem0) (r := halves)
  have h1 := h0.step (.mk (t := 0) (by decide) (.begin (op := .reverse) (fun _ => 0) ⟨trivial, trivial, trivial⟩))
  have h2 := h1.step (.mk (t := 0) (by decide) .read)
  have h3 := h2.step (.mk (t := 0) (by decide) .read)
  have h4 := h3.step (.mk (t := 0) (by decide) .write)
  have h5 := h4.step (.mk (t := 0) (by decide) .write)
  have h6 := h5.step (.mk (t := 0) (by decide) .finish)
  refine ⟨_, h6, fun t => ?_, fun t p hp => ?_, rfl, rfl⟩
  · simp only
    split
    · rfl
    · simp_all
  · rcases t with _ | _ | t
    · cases hp; rfl
    · cases hp; rfl
    · simp [halves] at hp

end Verif.SlicePar
