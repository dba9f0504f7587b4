import Verif.SklPage.Lemmas
/-!
# C179: reading a skip-list map page by page
-/
namespace Verif.SklPage
open Verif.Go Verif.MapSpec Verif.Skl

variable {K V : Type} [GoOrdered K] [LawfulOrdered K] [DecidableEq K] [Inhabited K] [Inhabited V]

/-- **C179, in full** (false, see `C179_refuted`): whatever is set, deleted and cleared between the pages, each page has the first `n` entries after the last key seen. -/
def C179_full : Prop := ∀ (seed : BitVec 64) (n : Nat) (gaps : List (List (Op Int Int))) (ps : List (List (Int × Int))),
  paging (fun w last => page w last n) (Skl.new seed) none gaps = .ret ps → Pages onwards n [] none gaps ps

/-- **C179 is false**: when the last key of a page has been deleted, the next page begins at the beginning again. With 1, 2, 3 in the map and pages of two: the first page
is 1, 2; then 2 is deleted; and the second page is 1, 3. -/
theorem C179_again : paging (fun w last => page w last 2) (Skl.new 0#64 : World Int Int) none [[.set 1 10, .set 2 20, .set 3 30], [.del 2]] =
    .ret [[(1, 10), (2, 20)], [(1, 10), (3, 30)]] := by rfl

theorem C179_refuted : ¬ C179_full := fun h => by
  have h1 := (h _ _ _ _ C179_again).beyond.2
  revert h1
  decide

/-- **C179, what does hold of the simple program** (partial): it gets all pages, no page repeats anything or is out of order as long as the last key of each page is still
there when the next page is read. Missing: what is said in `C179_refuted`. -/
theorem C179_partial (seed : BitVec 64) (n : Nat) (gaps : List (List (Op K V))) :
    ∃ ps, paging (fun w last => page w last n) (Skl.new seed) none gaps = .ret ps ∧ (Held [] none gaps ps → Pages onwards n [] none gaps ps) := by
  obtain ⟨ps, h1, h2⟩ := (paging_spec seed n gaps [] none _ rfl).1
  exact ⟨ps, h1, h2.hold⟩

/-- **C179, looking at `ok`.** A program that looks at what `Seek` returns, and leaves out smaller keys if the key was not found, gets the right pages, whatever is
changed. -/
theorem C179_careful (seed : BitVec 64) (n : Nat) (gaps : List (List (Op K V))) :
    ∃ ps, paging (fun w last => carefulPage w last n) (Skl.new seed) none gaps = .ret ps ∧ Pages onwards n [] none gaps ps :=
  (paging_spec seed n gaps [] none _ rfl).2

/-- What the right pages have in common: all keys ascend, also from page to page, so that none comes twice; every entry was in the map when its page was read; and when a
page is not full, every key has been given that was there whenever a page was read. -/
theorem C179_pages {n : Nat} {gaps : List (List (Op K V))} {ps : List (List (K × V))} (h : Pages onwards n [] none gaps ps) :
    (ps.flatten.Pairwise fun a b => GoOrdered.lt a.1 b.1 = true) ∧
    (∀ (i : Nat) (p : List (K × V)), ps[i]? = some p → ∀ e ∈ p, lookup (gaps.take (i + 1)).flatten e.1 = some e.2) ∧
    (Ended n ps → ∀ z, Present z [] gaps → ∃ v, (z, v) ∈ ps.flatten) :=
  ⟨h.beyond.2, fun i p hp e he => by simpa using h.current i p hp e he, fun hE z hz => h.gives (fun _ _ => .inl rfl) hz (fun k hk => by cases hk) hE⟩

/-- There is only one way: the pages are determined by the calls. -/
theorem C179_unique {hist : List (Op K V)} {last : Option K} {n : Nat} {p q : List (K × V)} (hp : IsPage hist last n p) (hq : IsPage hist last n q) : p = q := by
  have sub : ∀ {p q : List (K × V)}, IsPage hist last n p → IsPage hist last n q → ∀ e ∈ p, e ∈ q := by
    intro p q hp hq e he
    rcases hq.all e.1 (by rw [hp.now e he]; rfl) (hp.after e he) with ⟨v, hv⟩ | ⟨full, lower⟩
    · have := hq.now _ hv
      rw [hp.now e he] at this
      cases this
      exact hv
    · exfalso
      -- all of q comes before e, so all of q is in p, with e: too many
      have qp : ∀ f ∈ q, f ∈ p := by
        intro f hf
        rcases hp.all f.1 (by rw [hq.now f hf]; rfl) (hq.after f hf) with ⟨v, hv⟩ | ⟨-, lo⟩
        · have := hp.now _ hv
          rw [hq.now f hf] at this
          cases this
          exact hv
        · have h1 := lo e he
          have h2 := lower f hf
          have h3 := LawfulOrdered.trans _ _ _ h1 h2
          rw [LawfulOrdered.irrefl] at h3
          cases h3
      have nd : ∀ {l : List (K × V)}, (l.Pairwise fun a b => GoOrdered.lt a.1 b.1 = true) → l.Nodup := fun h => h.imp fun {a b} hlt he => by
        rw [he, LawfulOrdered.irrefl] at hlt; cases hlt
      have enq : e ∉ q := fun h => by
        have := lower e h
        rw [LawfulOrdered.irrefl] at this
        cases this
      have := (List.subperm_of_subset (List.nodup_cons.2 ⟨enq, nd hq.up⟩) (fun f hf => by
        rcases List.mem_cons.1 hf with rfl | hf
        · exact he
        · exact qp f hf : ∀ f ∈ e :: q, f ∈ p)).length_le
      have := hp.size
      simp at *
      omega
  have nd : ∀ {l : List (K × V)}, (l.Pairwise fun a b => GoOrdered.lt a.1 b.1 = true) → l.Nodup := fun h => h.imp fun {a b} hlt he => by
    rw [he, LawfulOrdered.irrefl] at hlt; cases hlt
  have perm : p.Perm q := (List.perm_ext_iff_of_nodup (nd hp.up) (nd hq.up)).2 fun e => ⟨sub hp hq e, sub hq hp e⟩
  exact perm.eq_of_pairwise (fun a b _ _ h1 h2 => by
    have h3 := LawfulOrdered.trans _ _ _ h1 h2
    rw [LawfulOrdered.irrefl] at h3
    cases h3) hp.up hq.up

/-- **C179, nothing is missed,** also by the simple program: when a page is not full, every key has been given that was there whenever a page was read, and what was given
was in the map when its page was read. Keys may come again. -/
theorem C179_missed_nothing (seed : BitVec 64) (n : Nat) (gaps : List (List (Op K V))) :
    ∃ ps, paging (fun w last => page w last n) (Skl.new seed) none gaps = .ret ps ∧
      (∀ (i : Nat) (p : List (K × V)), ps[i]? = some p → ∀ e ∈ p, lookup (gaps.take (i + 1)).flatten e.1 = some e.2) ∧
      (Ended n ps → ∀ z, Present z [] gaps → ∃ v, (z, v) ∈ ps.flatten) := by
  obtain ⟨ps, h1, h2⟩ := (paging_spec seed n gaps [] none _ rfl).1
  refine ⟨ps, h1, fun i p hp e he => by simpa using h2.current i p hp e he, fun hE z hz => h2.gives (fun h last => ?_) hz (fun k hk => by cases hk) hE⟩
  unfold restarting
  cases last with
  | none => exact .inl rfl
  | some k => rw [Option.filter_some]; split <;> simp

/-- **C179, an end.** As long as the pages are full, no more keys have been given than `Set` calls were made: the reader comes to an end if no new keys keep coming. -/
theorem C179_ends {n : Nat} {gaps : List (List (Op K V))} {ps : List (List (K × V))} (h : Pages onwards n [] none gaps ps) (full : ∀ p ∈ ps, p.length = n) :
    n * ps.length ≤ (SklWeak.setKeys gaps.flatten).length := by
  obtain ⟨up, cur, -⟩ := C179_pages h
  have len : ps.flatten.length = n * ps.length := by
    clear h up cur
    induction ps with
    | nil => simp
    | cons p ps ih => simp only [List.flatten_cons, List.length_append, List.length_cons, full p (by simp), ih fun q hq => full q (by simp [hq])]; ring
  have nd : (ps.flatten.map (·.1)).Nodup := List.pairwise_map.2 (up.imp fun {a b} hlt he => by rw [he, LawfulOrdered.irrefl] at hlt; cases hlt)
  have sub : ∀ k ∈ ps.flatten.map (·.1), k ∈ SklWeak.setKeys gaps.flatten := by
    intro k hk
    obtain ⟨e, he, rfl⟩ := List.mem_map.1 hk
    obtain ⟨p, hp, he⟩ := List.mem_flatten.1 he
    obtain ⟨i, hi⟩ := List.mem_iff_getElem?.1 hp
    have := cur i p hi e he
    rcases SklWeak.lookup_present (hist := []) (gaps.take (i + 1)).flatten (by rw [List.nil_append, this]; rfl) with h | h
    · cases h
    · refine SklWeak.setKeys_prefix ?_ h
      exact ⟨(gaps.drop (i + 1)).flatten, by rw [← List.flatten_append, List.take_append_drop]⟩
  have := (List.subperm_of_subset nd sub).length_le
  rwa [List.length_map, len] at this

/-! ## Examples -/

/-- The map is changed between the pages, the last keys stay: 2 and 5. -/
def exGaps : List (List (Op Int Int)) := [[.set 1 10, .set 2 20, .set 4 40], [.del 1, .set 3 30, .set 5 50, .del 4], [.set 2 21]]

theorem ex_paging : paging (fun w last => page w last 2) (Skl.new 0#64) none exGaps = .ret [[(1, 10), (2, 20)], [(3, 30), (5, 50)], []] := by rfl

/-- The hypotheses of `C179_partial`, `C179_pages` and `C179_ends` hold of them. -/
example : Held [] none exGaps [[(1, 10), (2, 20)], [(3, 30), (5, 50)], []] ∧ Pages onwards 2 [] none exGaps [[(1, 10), (2, 20)], [(3, 30), (5, 50)], []] ∧
    Ended 2 [[((1 : Int), (10 : Int)), (2, 20)], [(3, 30), (5, 50)], []] ∧ Present 2 [] exGaps := by
  have hh : Held [] none exGaps [[(1, 10), (2, 20)], [(3, 30), (5, 50)], []] :=
    .cons (by simp) (.cons (by rintro k ⟨⟩; decide) (.cons (by rintro k ⟨⟩; decide) .nil))
  refine ⟨hh, ?_, ⟨[], rfl, by decide⟩, by decide, by decide, by decide, trivial⟩
  obtain ⟨ps, h1, h2⟩ := C179_partial 0#64 2 exGaps
  rw [ex_paging] at h1
  cases h1
  exact h2 hh

/-- In the case of `C179_again` a program that looks at `ok` goes on after 2. -/
example : paging (fun w last => carefulPage w last 2) (Skl.new 0#64 : World Int Int) none [[.set 1 10, .set 2 20, .set 3 30], [.del 2]] =
    .ret [[(1, 10), (2, 20)], [(3, 30)]] := by rfl

end Verif.SklPage
