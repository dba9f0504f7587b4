import Verif.SklAny.Lemmas
import Verif.Skl.Props
/-!
# C97: the skip list with any keys, NaN included
-/
set_option linter.unusedSectionVars false
namespace Verif.SklAny
open Verif.Go Verif.MapSpec Verif.Skl

section
variable {K V : Type} [GoOrdered K] [Inhabited K] [Inhabited V]

/-- **C97.** Whatever `<` and `==` answer, after every history and with every seed: no call panics or hangs; the
entries come from the changes of the specification, in which nothing gets lost; `Keys`, `Values`, `Len`
and the iterator all show the same entries; `Get`, `Seek` and `Del` decide at one place of the key. -/
theorem C97_any_keys (seed : BitVec 64) (hist : List (Op K V)) :
    ∃ w l, run (Skl.new seed) hist = .ret w ∧ Changes [] hist l ∧
      Skl.entries w = .ret l ∧ Skl.keys w = .ret (l.map Prod.fst) ∧ Skl.values w = .ret (l.map Prod.snd) ∧
      Skl.len w = l.length ∧
      (∃ it', nexts w (l.length + 1) Skl.iterator = .ret (it', l.map some ++ [none])) ∧
      (∀ k, ∃ A B, l = A ++ B ∧ Place A k B ∧
        ((∃ k' v B', B = (k', v) :: B' ∧ GoOrdered.eq k' k = true ∧ Skl.get w k = .ret (some v) ∧
            (∀ it, ∃ it', Skl.seek w it k = .ret (it', some (k', v))) ∧
            ∃ w', Skl.del w k = .ret (w', true) ∧ Skl.entries w' = .ret (A ++ B')) ∨
          ((∀ b ∈ B.head?, GoOrdered.eq b.1 k = false) ∧ Skl.get w k = .ret none ∧
            (∀ it, Skl.seek w it k = .ret (Skl.iterator, none)) ∧ Skl.del w k = .ret (w, false)))) ∧
      ∀ k v, ∃ w' l', Skl.set w k v = .ret w' ∧ Skl.entries w' = .ret l' ∧ Change l (.set k v) l' := by
  obtain ⟨w, nodes, e, r, c⟩ := (Rep0.newIn (K := K) (V := V) emptyHeap seed).run hist
  refine ⟨w, kvs w nodes, e, c, r.entries, by simp [Skl.keys, r.entries], by simp [Skl.values, r.entries],
    by simp [Skl.len, r.len, kvs], ⟨⟨some w.skl.tail⟩, ?_⟩, ?_, ?_⟩
  · have := nexts_spec nodes w.skl.head Skl.iterator r.chain0 r.ne_tail (.inr ⟨rfl, rfl⟩)
    simpa [kvs] using this
  · intro k
    obtain ⟨ctx, A, B, hn, hctx, h1, h2, ⟨x, S, rfl, he, hs⟩ | ⟨he, hs⟩⟩ := r.search k
    · refine ⟨kvs w A, kvs w (x :: S), by rw [hn, kvs_append], place_kvs h1 h2,
        .inl ⟨_, _, kvs w S, rfl, he, by simp [Skl.get, hs], fun it => ⟨_, by simp [Skl.seek, hs]; rfl⟩, ?_⟩⟩
      obtain ⟨w', e', f, hb, r', ho⟩ := r.delete k hn hctx hs
      exact ⟨w', e', by rw [r'.entries, kvs_congr (fun a _ => ho a), kvs_append]⟩
    · exact ⟨kvs w A, kvs w B, by rw [hn, kvs_append], place_kvs h1 h2,
        .inr ⟨head_kvs he, by simp [Skl.get, hs], fun it => by simp [Skl.seek, hs]; rfl,
          by show Skl.delete w k = _; unfold Skl.delete; rw [hs]; rfl⟩⟩
  · intro k v
    obtain ⟨w', nodes', e', r', c'⟩ := r.set k v
    exact ⟨w', _, e', r'.entries, c'⟩

end

section
variable {K V : Type} [GoOrdered K]

/-- Nothing gets lost: an entry stays, value and all, until an update names an equal key or clears the map. -/
theorem C97_kept {l l' : List (K × V)} {hist : List (Op K V)} (h : Changes l hist l') {k : K} {v : V}
    (hm : (k, v) ∈ l) (hn : ∀ op ∈ hist, ¬ Touches k op) : (k, v) ∈ l' := by
  induction h with
  | nil => exact hm
  | @cons l1 l2 l3 op hist c _ ih =>
    refine ih ?_ (fun o ho => hn o (by simp [ho]))
    have hno := hn op (by simp)
    cases c with
    | add _ _ =>
      simp only [List.mem_append, List.mem_cons] at hm ⊢
      tauto
    | replace _ he =>
      simp only [List.mem_append, List.mem_cons, Prod.mk.injEq] at hm ⊢
      rcases hm with h | ⟨rfl, rfl⟩ | h
      · exact .inl h
      · exact absurd he hno
      · exact .inr (.inr h)
    | remove _ he =>
      simp only [List.mem_append, List.mem_cons, Prod.mk.injEq] at hm ⊢
      rcases hm with h | ⟨rfl, rfl⟩ | h
      · exact .inl h
      · exact absurd he hno
      · exact .inr h
    | miss _ _ => exact hm
    | clear => exact absurd trivial hno

/-- A key that equals nothing, as NaN: every `Set` adds an entry, no `Del` removes one. -/
theorem C97_unequal {l l' : List (K × V)} {op : Op K V} (h : Change l op l') (k : K)
    (hk : ∀ k', GoOrdered.eq k' k = false) :
    (∀ v, op = .set k v → ∃ A B, l = A ++ B ∧ l' = A ++ (k, v) :: B) ∧ (op = .del k → l' = l) := by
  constructor
  · rintro v rfl
    cases h with
    | @add A B _ _ _ _ => exact ⟨A, B, rfl, rfl⟩
    | replace _ he => rw [hk] at he; cases he
  · rintro rfl
    cases h with
    | remove _ he => rw [hk] at he; cases he
    | miss _ _ => rfl

/-- Nothing appears from nowhere: each entry carries a key and a value that some `Set` brought. -/
theorem C97_origin {hist : List (Op K V)} {l : List (K × V)} (h : Changes [] hist l) :
    ∀ e ∈ l, (∃ v, Op.set e.1 v ∈ hist) ∧ ∃ k, Op.set k e.2 ∈ hist ∧ (k = e.1 ∨ GoOrdered.eq e.1 k = true) := by
  have gen : ∀ (l l' : List (K × V)) (hist : List (Op K V)), Changes l hist l' → ∀ e ∈ l',
      ((∃ u, (e.1, u) ∈ l) ∨ ∃ v, Op.set e.1 v ∈ hist) ∧
      (e ∈ l ∨ ∃ k, Op.set k e.2 ∈ hist ∧ (k = e.1 ∨ GoOrdered.eq e.1 k = true)) := by
    intro l l' hist h
    induction h with
    | nil => intro e he; exact ⟨.inl ⟨e.2, he⟩, .inl he⟩
    | @cons l1 l2 l3 op hist c _ ih =>
      intro e he
      -- the entries after one change
      have one : ∀ e ∈ l2, ((∃ u, (e.1, u) ∈ l1) ∨ ∃ v, op = Op.set e.1 v) ∧
          (e ∈ l1 ∨ ∃ k, op = Op.set k e.2 ∧ (k = e.1 ∨ GoOrdered.eq e.1 k = true)) := by
        intro e he
        cases c with
        | @add A B k v _ _ =>
          rcases List.mem_append.1 he with h | h
          · exact ⟨.inl ⟨e.2, by simp [h]⟩, .inl (by simp [h])⟩
          · rcases List.mem_cons.1 h with rfl | h
            · exact ⟨.inr ⟨v, rfl⟩, .inr ⟨k, rfl, .inl rfl⟩⟩
            · exact ⟨.inl ⟨e.2, by simp [h]⟩, .inl (by simp [h])⟩
        | @replace A B k k' u v _ hq =>
          rcases List.mem_append.1 he with h | h
          · exact ⟨.inl ⟨e.2, by simp [h]⟩, .inl (by simp [h])⟩
          · rcases List.mem_cons.1 h with rfl | h
            · exact ⟨.inl ⟨u, by simp⟩, .inr ⟨k, rfl, .inr hq⟩⟩
            · exact ⟨.inl ⟨e.2, by simp [h]⟩, .inl (by simp [h])⟩
        | @remove A B k k' u _ _ =>
          rcases List.mem_append.1 he with h | h <;>
            exact ⟨.inl ⟨e.2, by simp [h]⟩, .inl (by simp [h])⟩
        | miss _ _ => exact ⟨.inl ⟨e.2, he⟩, .inl he⟩
        | clear => cases he
      obtain ⟨h1, h2⟩ := ih e he
      constructor
      · rcases h1 with ⟨u, hu⟩ | ⟨v, hv⟩
        · rcases (one _ hu).1 with h | ⟨v, rfl⟩
          · exact .inl h
          · exact .inr ⟨v, by simp⟩
        · exact .inr ⟨v, by simp [hv]⟩
      · rcases h2 with h | ⟨k, hk, hq⟩
        · rcases (one _ h).2 with h | ⟨k, rfl, hq⟩
          · exact .inl h
          · exact .inr ⟨k, by simp, hq⟩
        · exact .inr ⟨k, by simp [hk], hq⟩
  intro e he
  obtain ⟨h1, h2⟩ := gen [] l hist h e he
  exact ⟨by simpa using h1, by simpa using h2⟩

end

/-- Two entries for NaN and two for 1: lookups are wrong, but every entry is there. -/
example : ∃ w, run (Skl.new 0#64) [.set (FloatKey.num 1) (10 : Int), .set .nan 20, .set (.num 1) 30, .set .nan 40] =
    .ret w ∧ Skl.entries w = .ret [(.nan, 40), (.num 1, 30), (.nan, 20), (.num 1, 10)] ∧ Skl.len w = 4 ∧
    Skl.get w (.num 1) = .ret none :=
  ⟨_, rfl, rfl, rfl, rfl⟩

/-- A key that equals nothing. -/
example : ∀ k', GoOrdered.eq k' FloatKey.nan = false := by intro k'; cases k' <;> rfl

/-- Comparisons may be worse than those of floats: here everything is below everything and equal to it. -/
example : ∃ (A B : List (Nat × Nat)), @Place Nat Nat ⟨fun _ _ => true, fun _ _ => true⟩ A 5 B ∧ A = [(7, 1), (3, 2)] ∧ B = [] :=
  ⟨_, _, ⟨by simp, by simp⟩, rfl, rfl⟩

end Verif.SklAny
