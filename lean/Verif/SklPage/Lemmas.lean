import Verif.SklPage.Spec
import Verif.Skl.Props
import Verif.SklWeak.Props
/-!
# Lemmas for C179
-/
namespace Verif.SklPage
open Verif.Go Verif.MapSpec Verif.Skl

variable {K V : Type} [GoOrdered K] [LawfulOrdered K] [DecidableEq K] [Inhabited K] [Inhabited V]

omit [LawfulOrdered K] [DecidableEq K] in
theorem nexts_cons {w : World K V} {it it2 : Iter} {r : Option (K × V)} {rs : List (Option (K × V))} {n : Nat} (h : nexts w (n + 1) it = .ret (it2, r :: rs)) :
    ∃ it', Skl.next w it = .ret (it', r) ∧ nexts w n it' = .ret (it2, rs) := by
  rw [nexts] at h
  cases hn : Skl.next w it with
  | ret x =>
    obtain ⟨it', r'⟩ := x
    rw [hn] at h
    cases hm : nexts w n it' with
    | ret y =>
      obtain ⟨it3, rs'⟩ := y
      simp [hm] at h
      obtain ⟨rfl, rfl, rfl⟩ := h
      exact ⟨it', rfl, hm⟩
    | panic => simp [hm] at h
    | hang => simp [hm] at h
  | panic => simp [hn] at h
  | hang => simp [hn] at h

omit [LawfulOrdered K] [DecidableEq K] in
theorem take_eq {w : World K V} {it2 : Iter} (l : List (K × V)) : ∀ (n : Nat) (it : Iter), nexts w (l.length + 1) it = .ret (it2, l.map some ++ [none]) →
    take w n it = .ret (l.take n) := by
  induction l with
  | nil =>
    intro n it h
    obtain ⟨it', h1, -⟩ := nexts_cons (n := 0) h
    cases n with
    | zero => rfl
    | succ n => simp [take, h1]
  | cons e l ih =>
    intro n it h
    obtain ⟨it', h1, h2⟩ := nexts_cons h
    cases n with
    | zero => rfl
    | succ n => simp [take, h1, ih n it' h2]

omit [LawfulOrdered K] [DecidableEq K] in
theorem takeAfter_eq {w : World K V} {k : K} {it2 : Iter} (l : List (K × V)) : ∀ (f n : Nat) (it : Iter), l.length < f → nexts w (l.length + 1) it = .ret (it2, l.map some ++ [none]) →
    takeAfter w k f n it = .ret ((l.filter fun e => GoOrdered.lt k e.1).take n) := by
  induction l with
  | nil =>
    intro f n it hf h
    obtain ⟨it', h1, -⟩ := nexts_cons (n := 0) h
    obtain ⟨f, rfl⟩ : ∃ f', f = f' + 1 := ⟨f - 1, by simp at hf; omega⟩
    cases n with
    | zero => simp [takeAfter]
    | succ n => simp [takeAfter, h1]
  | cons e l ih =>
    intro f n it hf h
    obtain ⟨it', h1, h2⟩ := nexts_cons h
    obtain ⟨f, rfl⟩ : ∃ f', f = f' + 1 := ⟨f - 1, by simp at hf; omega⟩
    have hf' : l.length < f := by simpa using hf
    cases n with
    | zero => simp [takeAfter]
    | succ n =>
      cases hk : GoOrdered.lt k e.1 with
      | true => simp [takeAfter, h1, hk, ih f n it' hf' h2]
      | false => simp [takeAfter, h1, hk, ih f (n + 1) it' hf' h2]

/-- The map as a list of entries. -/
theorem listed (seed : BitVec 64) (hist : List (Op K V)) : ∃ (w : World K V) (l : List (K × V)) (it2 : Iter), run (Skl.new seed) hist = .ret w ∧
    nexts w (l.length + 1) Skl.iterator = .ret (it2, l.map some ++ [none]) ∧ l.length ≤ w.heap.brk ∧ l.Pairwise (fun a b => GoOrdered.lt a.1 b.1 = true) ∧
    ∀ k v, (k, v) ∈ l ↔ lookup hist k = some v := by
  obtain ⟨w, nodes, e, r, h⟩ := run_rep seed hist
  have hl : (kvs w nodes).length = nodes.length := by simp [kvs]
  refine ⟨w, kvs w nodes, _, e, by rw [hl]; exact nexts_spec nodes _ _ r.chain0 r.ne_tail (.inr ⟨rfl, rfl⟩), by rw [hl]; exact r.length_le, ?_, fun k v => ?_⟩
  · rw [kvs, List.pairwise_map]; exact r.sorted
  · rw [h k v]
    simp [kvs]

omit [LawfulOrdered K] [Inhabited K] [Inhabited V] in
theorem isPage_take {hist : List (Op K V)} {last : Option K} {n : Nat} {l : List (K × V)} (up : l.Pairwise fun a b => GoOrdered.lt a.1 b.1 = true)
    (hl : ∀ k v, (k, v) ∈ l ↔ After last k ∧ lookup hist k = some v) : IsPage hist last n (l.take n) where
  up := up.sublist (List.take_sublist ..)
  after e he := ((hl e.1 e.2).1 (List.mem_of_mem_take he)).1
  now e he := ((hl e.1 e.2).1 (List.mem_of_mem_take he)).2
  size := by simp
  all z hz ha := by
    obtain ⟨v, hv⟩ := Option.isSome_iff_exists.1 hz
    have hm := (hl z v).2 ⟨ha, hv⟩
    rw [← List.take_append_drop n l] at hm up
    rcases List.mem_append.1 hm with hm | hm
    · exact .inl ⟨v, hm⟩
    · refine .inr ⟨?_, fun e he => (List.pairwise_append.1 up).2.2 e he _ hm⟩
      have : n < l.length := by
        by_contra hc
        rw [List.drop_eq_nil_of_le (by omega)] at hm
        cases hm
      simp; omega

/-- One page. -/
theorem page_spec (seed : BitVec 64) (hist : List (Op K V)) (last : Option K) (n : Nat) : ∃ w p q, run (Skl.new seed) hist = .ret w ∧
    page w last n = .ret p ∧ IsPage hist (restarting hist last) n p ∧ carefulPage w last n = .ret q ∧ IsPage hist last n q := by
  obtain ⟨w, l, it2, e, hn, hb, up, hl⟩ := listed seed hist
  have first : IsPage hist none n (l.take n) := isPage_take up fun k v => by simp [hl, After]
  cases last with
  | none => exact ⟨w, _, _, e, take_eq l n _ hn, first, take_eq l n _ hn, first⟩
  | some k =>
    obtain ⟨w', e', h1, h2, -⟩ := C03_seek seed hist Skl.iterator k
    rw [e] at e'
    cases e'
    cases hk : lookup hist k with
    | some v =>
      obtain ⟨it', it3, l', g1, g2, g3, g4⟩ := h1 v hk
      have p : IsPage hist (some k) n (l'.take n) := isPage_take g3 fun k' v' => by simp [g4, After]
      have hr : restarting hist (some k) = some k := by simp [restarting, hk]
      exact ⟨w, l'.take n, l'.take n, e, by simp [page, g1, take_eq l' n _ g2], by rw [hr]; exact p, by simp [carefulPage, g1, take_eq l' n _ g2], p⟩
    | none =>
      have g := h2 hk
      have p : IsPage hist (some k) n ((l.filter fun e => GoOrdered.lt k e.1).take n) :=
        isPage_take (up.sublist List.filter_sublist) fun k' v' => by simp [hl, After, and_comm]
      have hr : restarting hist (some k) = none := by simp [restarting, hk]
      exact ⟨w, l.take n, _, e, by simp [page, g, take_eq l n _ hn], by rw [hr]; exact first,
        by simp [carefulPage, g, takeAfter_eq l (w.heap.brk + 1) n _ (by omega) hn], p⟩

omit [LawfulOrdered K] [DecidableEq K] [Inhabited K] [Inhabited V] in
/-- What comes last is at or after what has come. -/
theorem lastOf_spec (last : Option K) {p : List (K × V)} (up : p.Pairwise fun a b => GoOrdered.lt a.1 b.1 = true) :
    (p = [] ∧ lastOf last p = last) ∨ ∃ e ∈ p, lastOf last p = some e.1 ∧ ∀ e' ∈ p, e' = e ∨ GoOrdered.lt e'.1 e.1 = true := by
  rcases List.eq_nil_or_concat p with rfl | ⟨q, e, rfl⟩
  · exact .inl ⟨rfl, rfl⟩
  · rw [List.concat_eq_append] at up ⊢
    refine .inr ⟨e, by simp, by simp [lastOf], fun e' he' => ?_⟩
    rcases List.mem_append.1 he' with h | h
    · exact .inr ((List.pairwise_append.1 up).2.2 e' h e (by simp))
    · exact .inl (List.mem_singleton.1 h)

omit [Inhabited K] [Inhabited V] in
/-- The pages go on where the last one ended. -/
theorem Pages.beyond {n : Nat} {h : List (Op K V)} {last : Option K} {gaps : List (List (Op K V))} {ps : List (List (K × V))} (hp : Pages onwards n h last gaps ps) :
    (∀ e ∈ ps.flatten, After last e.1) ∧ ps.flatten.Pairwise fun a b => GoOrdered.lt a.1 b.1 = true := by
  induction hp with
  | nil => exact ⟨nofun, .nil⟩
  | @cons h last ops gaps p ps ip _ ih =>
    obtain ⟨ih1, ih2⟩ := ih
    rcases lastOf_spec last ip.up with ⟨rfl, h2⟩ | ⟨e, he, h2, h3⟩
    · rw [h2] at ih1
      exact ⟨by simpa using ih1, by simpa using ih2⟩
    · rw [h2] at ih1
      have lt : ∀ a ∈ p, ∀ b ∈ ps.flatten, GoOrdered.lt a.1 b.1 = true := by
        intro a ha b hb
        rcases h3 a ha with rfl | h
        · exact ih1 b hb _ rfl
        · exact LawfulOrdered.trans _ _ _ h (ih1 b hb _ rfl)
      refine ⟨fun b hb => ?_, ?_⟩
      · rw [List.flatten_cons] at hb
        rcases List.mem_append.1 hb with hb | hb
        · exact ip.after b hb
        · intro k hk
          exact LawfulOrdered.trans _ _ _ (ip.after e he k hk) (ih1 b hb _ rfl)
      · rw [List.flatten_cons, List.pairwise_append]
        exact ⟨ip.up, ih2, lt⟩

omit [LawfulOrdered K] [Inhabited K] [Inhabited V] in
/-- A key that is there at every reading and has not been passed is given, or a full page has gone by without an end. -/
theorem Pages.gives {start : List (Op K V) → Option K → Option K} (hs : ∀ h last, start h last = last ∨ start h last = none) {n : Nat} {h : List (Op K V)} {last : Option K}
    {gaps : List (List (Op K V))} {ps : List (List (K × V))} (hp : Pages start n h last gaps ps) {z : K} (hz : Present z h gaps) :
    After last z → Ended n ps → ∃ v, (z, v) ∈ ps.flatten := by
  induction hp with
  | nil => rintro - ⟨p, h, -⟩; cases h
  | @cons h last ops gaps p ps ip _ ih =>
    intro ha hE
    have ha' : After (start (h ++ ops) last) z := by
      rcases hs (h ++ ops) last with e | e <;> rw [e]
      · exact ha
      · intro k hk; cases hk
    rcases ip.all z hz.1 ha' with ⟨v, hv⟩ | ⟨full, below'⟩
    · exact ⟨v, by simp [hv]⟩
    · have hE' : Ended n ps := by
        obtain ⟨q, hq, hl⟩ := hE
        cases ps with
        | nil => simp at hq; subst hq; omega
        | cons p' ps => exact ⟨q, by simpa using hq, hl⟩
      have : After (lastOf last p) z := by
        rcases lastOf_spec last ip.up with ⟨rfl, h2⟩ | ⟨e, he, h2, -⟩ <;> rw [h2]
        · exact ha
        · intro k hk; cases hk; exact below' e he
      obtain ⟨v, hv⟩ := ih hz.2 this hE'
      exact ⟨v, by simp only [List.flatten_cons, List.mem_append]; exact .inr hv⟩

omit [LawfulOrdered K] [Inhabited K] [Inhabited V] in
/-- What is given was in the map at that time. -/
theorem Pages.current {start : List (Op K V) → Option K → Option K} {n : Nat} {h : List (Op K V)} {last : Option K} {gaps : List (List (Op K V))} {ps : List (List (K × V))}
    (hp : Pages start n h last gaps ps) : ∀ (i : Nat) (p : List (K × V)), ps[i]? = some p → ∀ e ∈ p, lookup (h ++ (gaps.take (i + 1)).flatten) e.1 = some e.2 := by
  induction hp with
  | nil => intro i p h; cases h
  | @cons h last ops gaps p ps ip _ ih =>
    intro i q hq e he
    cases i with
    | zero => cases hq; simpa using ip.now e he
    | succ i =>
      have := ih i q (by simpa using hq) e he
      simpa using this

omit [LawfulOrdered K] [Inhabited K] [Inhabited V] in
theorem Pages.hold {n : Nat} {h : List (Op K V)} {last : Option K} {gaps : List (List (Op K V))} {ps : List (List (K × V))} (hp : Pages restarting n h last gaps ps)
    (hh : Held h last gaps ps) : Pages onwards n h last gaps ps := by
  induction hp with
  | nil => exact .nil
  | @cons h last ops gaps p ps ip _ ih =>
    cases hh with
    | cons h1 h2 =>
      refine .cons ?_ (ih h2)
      have : restarting (h ++ ops) last = last := by
        cases last with
        | none => rfl
        | some k => simp [restarting, h1 k rfl]
      rwa [this] at ip

/-- The pages that the program reads. -/
theorem paging_spec (seed : BitVec 64) (n : Nat) (gaps : List (List (Op K V))) : ∀ (h : List (Op K V)) (last : Option K) (w : World K V), run (Skl.new seed) h = .ret w →
    (∃ ps, paging (fun w last => page w last n) w last gaps = .ret ps ∧ Pages restarting n h last gaps ps) ∧
    ∃ qs, paging (fun w last => carefulPage w last n) w last gaps = .ret qs ∧ Pages onwards n h last gaps qs := by
  induction gaps with
  | nil => exact fun h last w _ => ⟨⟨[], rfl, .nil⟩, [], rfl, .nil⟩
  | cons ops gaps ih =>
    intro h last w hw
    obtain ⟨w', p, q, e, e1, i1, e2, i2⟩ := page_spec seed (h ++ ops) last n
    have hr : run w ops = .ret w' := by rw [run_append, hw] at e; exact e
    obtain ⟨ps, f1, j1⟩ := (ih (h ++ ops) (lastOf last p) w' e).1
    obtain ⟨qs, f2, j2⟩ := (ih (h ++ ops) (lastOf last q) w' e).2
    exact ⟨⟨p :: ps, by simp [paging, hr, e1, f1], .cons i1 j1⟩, q :: qs, by simp [paging, hr, e2, f2], .cons i2 j2⟩

end Verif.SklPage
