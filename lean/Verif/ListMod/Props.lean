import Verif.ListMod.Only
/-!
# C105: `Iterate` of the linked list with callbacks that use the list
-/
set_option linter.unusedSectionVars false
namespace Verif.ListMod
open Verif.Linked Verif.Linked.LList Verif.ListExact

variable {T σ : Type} [Inhabited T]

theorem shows_rep {l : LL T} {x : X T} {ns : List Nat} (r : RepX l x ns) : Shows l x.elems := by
  have h := (step_rep r (.iterate fun _ => true)).1
  rw [Shows, h]
  simp only [exactStep]
  congr 1
  have : ∀ (acc l : List T), visited (fun _ => true) acc l = acc ++ l := by
    intro acc l
    induction l generalizing acc with
    | nil => simp [visited]
    | cons v l ih => simp [visited, ih]
  simpa using this [] x.elems

theorem Shows.eq {l : LL T} {vs ws : List T} (h : Shows l vs) (g : Shows l ws) : vs = ws := by
  rw [Shows] at h g
  rw [h] at g
  exact Res.vals.inj g

/-- **C105** (partial: the full statement, `C105_full`, is about all callbacks and is false, see `C105_refuted`; this is about those that put
nothing in.) Whatever happened before, and whatever is removed in whatever round: the values handed out are elements the list had at
the start, in their order and each at most once. After at most as many rounds as there were elements `Iterate` returns, and if the
callback never stopped it, all elements that are still there were handed out. -/
theorem C105_removes_partial (pre : List (Op T)) (f : σ → T → Prog σ T) (hf : ∀ s v, Removes (f s v)) (s : σ) (n : Nat)
    {vs : List T} (hs : Shows (after new pre) vs) :
    (rounds f (after new pre) s n).log.Sublist vs ∧
    (vs.length ≤ n → (rounds f (after new pre) s n).cur = none) ∧
    ∃ vs', Shows (rounds f (after new pre) s n).list vs' ∧ vs'.Sublist vs ∧
      (GoesOn f → (rounds f (after new pre) s n).cur = none → vs'.Sublist (rounds f (after new pre) s n).log) := by
  obtain ⟨ns, r⟩ := after_rep (new_rep (T := T)) pre
  have hvs := hs.eq (shows_rep r)
  have hv0 : vs = ns.map fun a => ((after new pre).mem.node a).data := by rw [hvs, r.data]
  obtain ⟨st, vis, k, x', ns', hk, w⟩ := rounds_sweep_stop hf (start_sweep r s) n
  refine ⟨?_, ?_, x'.elems, shows_rep w.rep, ?_, ?_⟩
  · rw [rounds, w.log, hv0]
    exact (w.sub.trans (List.take_sublist _ _)).map _
  · intro hn
    rcases hk with hk | hk
    · have hl : vs.length = ns.length := by rw [hv0]; simp
      rw [rounds, w.cur, List.getElem?_eq_none (by omega)]
      simp
    · exact hk
  · rw [w.rep.data, hv0]
    simp only [w.ord.data]
    exact w.ord.sub.map _
  · intro hgo hcur
    obtain ⟨vis2, k2, x2, ns2, _, w2⟩ := rounds_sweep hf hgo (start_sweep r s) n
    rw [rounds, w2.cur] at hcur
    have hk2 : ns.length ≤ k2 := by simpa using hcur
    have he := (shows_rep w.rep).eq (shows_rep w2.rep)
    rw [he, rounds, w2.log, w2.rep.data]
    simp only [w2.ord.data]
    refine List.Sublist.map _ (sublist_of_mem w2.ord.nodup w2.ord.sub (w2.sub.trans (List.take_sublist _ _)) ?_)
    intro a ha
    exact w2.all a (by rw [List.take_of_length_le hk2]; exact w2.ord.sub.subset ha) ha

/-- A callback that removes the first two elements when it is given the first one, and stops nothing. -/
def drop2 (_ : Unit) (v : Nat) : Prog Unit Nat :=
  if v = 1 then .call (.remove 0) fun _ => .call (.remove 0) fun _ => .done () true else .done () true

theorem drop2_removes (s : Unit) (v : Nat) : Removes (drop2 s v) := by
  unfold drop2
  split
  · exact .remove _ _ fun _ => .remove _ _ fun _ => .done _ _
  · exact .done _ _

/-- A list of three elements. -/
def three : List (Op Nat) := [.append 1 none, .append 2 none, .append 3 none]

/-- The hypotheses hold of `drop2`; it is handed 2, which is no longer in the list. -/
example : (∀ s v, Removes (drop2 s v)) ∧ GoesOn drop2 ∧ Shows (after new three) [1, 2, 3] ∧
    (rounds drop2 (after new three) () 3).log = [1, 2, 3] ∧ Shows (rounds drop2 (after new three) () 3).list [3] := by
  refine ⟨drop2_removes, ?_, by unfold Shows; decide, by decide, by unfold Shows; decide⟩
  intro l s v
  unfold drop2
  split <;> rfl

/-- One might also want that the callback is not given elements that are gone by then. This is false even if it only removes. -/
theorem C105_refuted_removed : ∃ (f : Unit → Nat → Prog Unit Nat) (v : Nat), (∀ s v, Removes (f s v)) ∧
    Shows (rounds f (after new three) () 1).list [3] ∧ v ∉ [3] ∧
    (rounds f (after new three) () 1).log = [1] ∧ (rounds f (after new three) () 2).log = [1, v] :=
  ⟨drop2, 2, drop2_removes, by unfold Shows; decide, by decide, by decide, by decide⟩

/-- **C105, exactly** (partial: missing are the callbacks that put something in or remove the next element after they removed the one
they were given, and those that cut it off by an `Append` behind a node in front of it; see `C105_refuted`.) For all histories before and
all other callbacks, `Iterate` goes on with the element that follows the current one when the callback is done, or with the one
that followed it when it was removed. Elements put in behind it are handed out, those put in before it are not. All calls afterwards show
what the description says. -/
theorem C105_exact_partial (pre : List (Op T)) (f : σ → T → Prog σ T) (s : σ) (n : Nat) {u : SIt σ T}
    (h : specRounds f ⟨exactAfter empty pre, some 0, s, []⟩ n = some u) :
    (rounds f (after new pre) s n).log = u.log ∧ (rounds f (after new pre) s n).state = u.state ∧
    ((rounds f (after new pre) s n).cur = none ↔ u.ended) ∧
    ∀ ops, run (rounds f (after new pre) s n).list ops = exactRun u.x ops := by
  obtain ⟨ns, r⟩ := after_rep (new_rep (T := T)) pre
  obtain ⟨ns', w⟩ := rounds_same n (start_same r s) h
  exact ⟨w.log, w.state, w.ended, fun ops => run_rep w.rep ops⟩

/-- A callback that puts 10 in behind the first element, 20 before the second, and removes the third. -/
def busy (i : Nat) (v : Nat) : Prog Nat Nat :=
  if v = 1 then .call (.insert 1 10 none) fun _ => .done i true
  else if v = 2 then .call (.insert 0 20 none) fun _ => .done i true
  else if v = 3 then .call .len fun _ => .call (.remove 4) fun _ => .done i true
  else .done i true

example : ∃ u, specRounds busy ⟨exactAfter empty three, some 0, 0, []⟩ 4 = some u ∧ u.ended ∧ u.log = [1, 10, 2, 3] ∧
    u.x.elems = [20, 1, 10, 2] := by
  refine ⟨_, rfl, ?_, rfl, rfl⟩
  intro p hp
  cases hp
  decide

/-- **C105** Throwing out elements while iterating: a callback that counts the elements it keeps and removes the current one by that number
is given every element once, in order, and leaves those that do not satisfy the predicate; `Len` goes down by one for each that
was removed. This is so after every history. -/
theorem C105_throw_out (pre : List (Op T)) (P : T → Bool) {vs : List T} (hs : Shows (after new pre) vs) :
    (rounds (throwOut P) (after new pre) 0 vs.length).cur = none ∧
    (rounds (throwOut P) (after new pre) 0 vs.length).log = vs ∧
    Shows (rounds (throwOut P) (after new pre) 0 vs.length).list (vs.filter fun v => !P v) ∧
    ∀ m : Int, (step (after new pre) .len).2 = .num m →
      (step (rounds (throwOut P) (after new pre) 0 vs.length).list .len).2 = .num (m - (vs.filter P).length) := by
  obtain ⟨ns, r⟩ := after_rep (new_rep (T := T)) pre
  have hvs := hs.eq (shows_rep r)
  obtain ⟨x', h1, h2, h3⟩ := throwOut_rounds (P := P) vs (x := exactAfter empty pre) (kept := []) (log := []) (by rw [hvs]; rfl)
  obtain ⟨ns', w⟩ := rounds_same vs.length (start_same r 0) h1
  refine ⟨?_, w.log, ?_, ?_⟩
  · refine w.ended.2 ?_
    intro p hp
    cases hp
    exact le_refl _
  · have := shows_rep w.rep
    rw [show x'.elems = vs.filter fun v => !P v by rw [h2]; rfl] at this
    exact this
  · intro m hm
    have e1 : (after new pre).length = m := by
      simp only [step, len] at hm
      exact Res.num.inj hm
    have e2 : (rounds (throwOut P) (after new pre) 0 vs.length).list.length = x'.len := w.rep.len
    simp only [step, len, e2, h3, ← r.len, e1]

example : Shows (rounds (throwOut fun v => decide (v ≠ 2)) (after new three) 0 3).list [2] :=
  (C105_throw_out three (fun v => decide (v ≠ 2)) (vs := [1, 2, 3]) (by unfold Shows; decide)).2.2.1

/-- A callback that moves the first element to the end; the pool hands it the node it just gave back. -/
def toEnd (_ : Unit) (v : Nat) : Prog Unit Nat :=
  if v = 1 then .call (.remove 0) fun _ => .call (.append 9 (some 0)) fun _ => .done () true else .done () true

/-- **C105** is false of the code: the loop reads `next` of a node that is in use again. It ends after the first element; the other two
are in the list all the time and are not handed out. -/
theorem C105_refuted : ¬ C105_full Nat := by
  intro h
  have := h Unit three toEnd () 1 [1, 2, 3] [2, 3, 9] (by unfold Shows; decide) (by decide) ?_ ?_ (by decide)
    (by unfold Shows; decide) 2 (by decide) (by decide)
  · revert this; decide
  · intro s v
    unfold toEnd
    split
    · exact .other _ _ (by simp) (by simp) fun _ => .append _ _ _ (by decide) fun _ => .done _ _
    · exact .done _ _
  · intro l s v
    unfold toEnd
    split <;> rfl

/-- **C105** A callback that appends in every round is called for ever. -/
theorem C105_forever (v : T) (n : Nat) :
    (rounds (fun (_ : Unit) (_ : T) => .call (.append v none) fun _ => .done () true) (after new [.append v none]) () n).cur ≠ none ∧
    (rounds (fun (_ : Unit) (_ : T) => .call (.append v none) fun _ => .done () true) (after new [.append v none]) () n).log =
      List.replicate n v := by
  have key : ∀ (n m : Nat) (c : Int) (q : Nat), ∃ u : SIt Unit T,
      specRounds (fun (_ : Unit) (_ : T) => .call (.append v none) fun _ => .done () true)
        ⟨⟨List.replicate (m + 1) v, .at m, c, q⟩, some m, (), List.replicate m v⟩ n = some u ∧ ¬ u.ended ∧
      u.log = List.replicate (m + n) v := by
    intro n
    induction n with
    | zero =>
      intro m c q
      refine ⟨_, rfl, ?_, rfl⟩
      intro h
      have := h m rfl
      simp at this
    | succ n ih =>
      intro m c q
      obtain ⟨u, h1, h2, h3⟩ := ih (m + 1) (c + 1) q
      refine ⟨u, ?_, h2, by rw [h3]; congr 1; omega⟩
      rw [← h1]
      simp only [specRounds]
      have hm : (List.replicate (m + 1) v)[m]? = some v := by simp
      simp only [specRound, Option.bind_some, hm, Option.map_some, specExec, Cur.step, Cur.behind, le_refl, if_true,
        exactStep, take, behind, Cur.next]
      rw [List.take_of_length_le (by simp), ← List.replicate_succ', ← List.replicate_succ']
  obtain ⟨u, h1, h2, h3⟩ := key n 0 1 0
  have hx : exactAfter (empty : X T) [.append v none] = ⟨List.replicate 1 v, .at 0, 1, 0⟩ := rfl
  obtain ⟨g1, _, g3, _⟩ := C105_exact_partial [.append v none]
    (fun (_ : Unit) (_ : T) => .call (.append v none) fun _ => .done () true) () n (u := u) (by rw [hx]; exact h1)
  exact ⟨fun h => h2 (g3.1 h), by rw [g1, h3]; simp⟩

example : (rounds (fun (_ : Unit) (_ : Nat) => .call (.append 7 none) fun _ => .done () true)
    (after new [.append 7 none]) () 3).log = [7, 7, 7] := (C105_forever 7 3).2

end Verif.ListMod
