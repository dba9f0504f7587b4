import Verif.HandOut.Spec
import Verif.Linked.Props
import Verif.SliceC.Props
import Verif.Ring.Props
/-!
# Lemmas for C158
-/
set_option linter.unusedSectionVars false
namespace Verif.HandOut
open Verif.Conc Verif.Linked Verif.Dsx Relation

variable {T C σ : Type} [Inhabited T]

/-! ## A bag -/

/-- A collection of elements from which `take` takes any. -/
def bag (kind : C → Kind T) : Obj (List T) C (Res T) := ⟨[], fun l c r l' =>
  match kind c with
  | .put v => r = .bool true ∧ l'.Perm (v :: l) ∨ r ≠ .bool true ∧ l' = l
  | .take => r = .none ∧ l = [] ∧ l' = [] ∨ ∃ v, r = .val v ∧ l.Perm (v :: l')
  | .look => l' = l⟩

/-- The account book of a sequential run. -/
structure Book (kind : C → Kind T) (S : List (Nat × C × Res T)) (M : Nat → Nat → Prop) (g : List (Nat × T)) : Prop where
  m : ∀ q p, M q p → ∃ v c c', kind c = .put v ∧ kind c' = .take ∧ Before S (p, c, .bool true) (q, c', .val v)
  single : ∀ q p p', M q p → M q p' → p = p'
  once : ∀ q q' p, M q p → M q' p → q = q'
  took : ∀ q c v, kind c = .take → (q, c, .val v) ∈ S → ∃ p, M q p
  distinct : (g.map Prod.fst).Nodup
  inside : ∀ p v, (p, v) ∈ g → (∃ c, kind c = .put v ∧ (p, c, .bool true) ∈ S) ∧ ∀ q, ¬ M q p
  all : ∀ p c v, kind c = .put v → (p, c, .bool true) ∈ S → (p, v) ∈ g ∨ ∃ q, M q p
  empty : ∀ e c p c' v, kind c = .take → kind c' = .put v → Before S (p, c', .bool true) (e, c, .none) → ∃ q, M q p

theorem snd_mem {g : List (Nat × T)} {v : T} (h : v ∈ g.map Prod.snd) : ∃ p, (p, v) ∈ g := by
  obtain ⟨⟨p, v'⟩, h1, h2⟩ := List.mem_map.1 h
  exact ⟨p, by simpa [← h2] using h1⟩

/-- A pair in the order of `S ++ [z]` is one of `S`, or ends with `z`. -/
theorem before_snoc {α : Type} {S : List α} {x y z : α} (h : Before (S ++ [z]) x y) : Before S x y ∨ x ∈ S ∧ y = z :=
  (Before.of_append h).imp id And.symm

theorem nodup_fst {S : List (Nat × C × Res T)} {x y : Nat × C × Res T} (nd : (S.map (·.1)).Nodup) (hx : x ∈ S) (hy : y ∈ S)
    (e : x.1 = y.1) : x = y := List.inj_on_of_nodup_map nd hx hy e

theorem book {kind : C → Kind T} {S : List (Nat × C × Res T)} {l : List T} (hl : Legal (bag kind) S l) :
    (S.map (·.1)).Nodup → ∃ M g, Book kind S M g ∧ (g.map Prod.snd).Perm l := by
  induction hl with
  | nil =>
    intro _
    refine ⟨fun _ _ => False, [], ⟨?_, ?_, ?_, ?_, ?_, ?_, ?_, ?_⟩, by simp [bag]⟩ <;> simp [Before]
  | @snoc S l l' id c r hl st ih =>
    intro nd
    have nd' : (S.map (·.1)).Nodup := by
      rw [List.map_append] at nd
      exact nd.of_append_left
    have hid : ∀ x ∈ S, x.1 ≠ id := by
      rw [List.map_append, List.nodup_append] at nd
      intro x hx
      exact nd.2.2 x.1 (List.mem_map.2 ⟨x, hx, rfl⟩) id (by simp)
    obtain ⟨M, g, b, pg⟩ := ih nd'
    have hM : ∀ q p, M q p → q ≠ id ∧ p ≠ id := by
      intro q p h
      obtain ⟨v, c, c', _, _, hb⟩ := b.m q p h
      exact ⟨hid _ hb.mem.2, hid _ hb.mem.1⟩
    have keep : (∀ v, kind c = .put v → r ≠ .bool true) → (∀ v, kind c = .take → r ≠ .val v) → (kind c = .take → r = .none → g = []) →
        Book kind (S ++ [(id, c, r)]) M g := by
      intro h1 h2 h3
      refine ⟨?_, b.single, b.once, ?_, b.distinct, ?_, ?_, ?_⟩
      · intro q p h
        obtain ⟨v, c, c', k1, k2, hb⟩ := b.m q p h
        exact ⟨v, c, c', k1, k2, hb.mono _⟩
      · intro q c' v hk hm
        rcases List.mem_append.1 hm with hm | hm
        · exact b.took q c' v hk hm
        · simp only [List.mem_singleton, Prod.mk.injEq] at hm
          obtain ⟨-, rfl, rfl⟩ := hm
          exact absurd rfl (h2 v hk)
      · intro p v hp
        obtain ⟨⟨c', k, hm⟩, hn⟩ := b.inside p v hp
        exact ⟨⟨c', k, List.mem_append_left _ hm⟩, hn⟩
      · intro p c' v hk hm
        rcases List.mem_append.1 hm with hm | hm
        · exact b.all p c' v hk hm
        · simp only [List.mem_singleton, Prod.mk.injEq] at hm
          obtain ⟨-, rfl, rfl⟩ := hm
          exact absurd rfl (h1 v hk)
      · intro e c' p c'' v k1 k2 hb
        rcases before_snoc hb with hb | ⟨hm, he⟩
        · exact b.empty e c' p c'' v k1 k2 hb
        · simp only [Prod.mk.injEq] at he
          obtain ⟨-, rfl, rfl⟩ := he
          have := h3 k1 rfl
          subst this
          rcases b.all p c'' v k2 hm with h | h
          · simp at h
          · exact h
    simp only [bag] at st
    split at st
    case h_1 v hk =>
      rcases st with ⟨rfl, hp⟩ | ⟨hr, rfl⟩
      · refine ⟨M, (id, v) :: g, ⟨?_, b.single, b.once, ?_, ?_, ?_, ?_, ?_⟩, ?_⟩
        · intro q p h
          obtain ⟨v, c, c', k1, k2, hb⟩ := b.m q p h
          exact ⟨v, c, c', k1, k2, hb.mono _⟩
        · intro q c' v' hk' hm
          rcases List.mem_append.1 hm with hm | hm
          · exact b.took q c' v' hk' hm
          · simp at hm
        · rw [List.map_cons, List.nodup_cons]
          refine ⟨fun hm => ?_, b.distinct⟩
          obtain ⟨⟨p, v'⟩, h1, h2⟩ := List.mem_map.1 hm
          obtain ⟨⟨c', _, hm'⟩, _⟩ := b.inside p v' h1
          exact hid _ hm' h2
        · intro p v' hp'
          rcases List.mem_cons.1 hp' with h | h
          · obtain ⟨rfl, rfl⟩ := Prod.mk.inj h
            exact ⟨⟨c, hk, by simp⟩, fun q hq => (hM q _ hq).2 rfl⟩
          · obtain ⟨⟨c', k, hm⟩, hn⟩ := b.inside p v' h
            exact ⟨⟨c', k, List.mem_append_left _ hm⟩, hn⟩
        · intro p c' v' hk' hm
          rcases List.mem_append.1 hm with hm | hm
          · rcases b.all p c' v' hk' hm with h | h
            · exact .inl (List.mem_cons_of_mem _ h)
            · exact .inr h
          · simp only [List.mem_singleton, Prod.mk.injEq] at hm
            obtain ⟨rfl, rfl, -⟩ := hm
            rw [hk] at hk'; cases hk'
            exact .inl (by simp)
        · intro e c' p c'' v' k1 k2 hb
          rcases before_snoc hb with hb | ⟨hm, he⟩
          · exact b.empty e c' p c'' v' k1 k2 hb
          · simp at he
        · simpa using (pg.cons v).trans hp.symm
      · refine ⟨M, g, keep (fun _ _ => hr) ?_ ?_, pg⟩
        · intro v' h; rw [hk] at h; cases h
        · intro h; rw [hk] at h; cases h
    case h_2 hk =>
      rcases st with ⟨rfl, rfl, rfl⟩ | ⟨v, rfl, hp⟩
      · refine ⟨M, g, keep ?_ ?_ ?_, pg⟩
        · intro v h; rw [hk] at h; cases h
        · intro v _; simp
        · intro _ _; simpa using pg
      · have hv : v ∈ g.map Prod.snd := (pg.trans hp).mem_iff.2 (by simp)
        obtain ⟨p0, hp0⟩ := snd_mem hv
        obtain ⟨g1, g2, rfl⟩ := List.append_of_mem hp0
        obtain ⟨⟨c0, k0, hm0⟩, hn0⟩ := b.inside p0 v (by simp)
        have hp0id : p0 ≠ id := hid _ hm0
        have dn := b.distinct
        rw [List.map_append, List.map_cons] at dn
        have dn2 := List.nodup_middle.1 dn
        have hne : ∀ x ∈ g1 ++ g2, x.1 ≠ p0 := by
          intro x hx e
          exact (List.nodup_cons.1 dn2).1 (by rw [← List.map_append]; exact List.mem_map.2 ⟨x, hx, e⟩)
        have sub : ∀ x ∈ g1 ++ g2, x ∈ g1 ++ (p0, v) :: g2 := by
          intro x hx
          rcases List.mem_append.1 hx with h | h
          · exact List.mem_append_left _ h
          · exact List.mem_append_right _ (List.mem_cons_of_mem _ h)
        refine ⟨fun q p => M q p ∨ q = id ∧ p = p0, g1 ++ g2, ⟨?_, ?_, ?_, ?_, ?_, ?_, ?_, ?_⟩, ?_⟩
        · rintro q p (h | ⟨rfl, rfl⟩)
          · obtain ⟨v, c, c', k1, k2, hb⟩ := b.m q p h
            exact ⟨v, c, c', k1, k2, hb.mono _⟩
          · exact ⟨v, c0, c, k0, hk, Before.last hm0 _⟩
        · rintro q p p' (h | ⟨rfl, rfl⟩) (h' | ⟨h', rfl⟩)
          · exact b.single q p p' h h'
          · exact absurd h' (hM q p h).1
          · exact absurd rfl (hM _ _ h').1
          · rfl
        · rintro q q' p (h | ⟨rfl, rfl⟩) (h' | ⟨rfl, h'⟩)
          · exact b.once q q' p h h'
          · subst h'; exact absurd h (hn0 q)
          · exact absurd h' (hn0 q')
          · rfl
        · intro q c' v' hk' hm
          rcases List.mem_append.1 hm with hm | hm
          · obtain ⟨p, hp⟩ := b.took q c' v' hk' hm
            exact ⟨p, .inl hp⟩
          · simp only [List.mem_singleton, Prod.mk.injEq] at hm
            exact ⟨p0, .inr ⟨hm.1, rfl⟩⟩
        · rw [List.map_append]; exact (List.nodup_cons.1 dn2).2
        · intro p v' hp'
          obtain ⟨⟨c', k, hm⟩, hn⟩ := b.inside p v' (sub _ hp')
          refine ⟨⟨c', k, List.mem_append_left _ hm⟩, ?_⟩
          rintro q (h | ⟨-, rfl⟩)
          · exact hn q h
          · exact hne _ hp' rfl
        · intro p c' v' hk' hm
          rcases List.mem_append.1 hm with hm | hm
          · rcases b.all p c' v' hk' hm with h | ⟨q, h⟩
            · rcases List.mem_append.1 h with h | h
              · exact .inl (List.mem_append_left _ h)
              · rcases List.mem_cons.1 h with h | h
                · exact .inr ⟨id, .inr ⟨rfl, (Prod.mk.inj h).1⟩⟩
                · exact .inl (List.mem_append_right _ h)
            · exact .inr ⟨q, .inl h⟩
          · simp at hm
        · intro e c' p c'' v' k1 k2 hb
          rcases before_snoc hb with hb | ⟨hm, he⟩
          · obtain ⟨q, h⟩ := b.empty e c' p c'' v' k1 k2 hb
            exact ⟨q, .inl h⟩
          · simp at he
        · have h1 : ((g1 ++ (p0, v) :: g2).map Prod.snd).Perm (v :: (g1 ++ g2).map Prod.snd) := by
            simp only [List.map_append, List.map_cons]
            exact List.perm_middle
          exact (h1.symm.trans (pg.trans hp)).cons_inv
    case h_3 hk =>
      subst st
      refine ⟨M, g, keep ?_ ?_ ?_, pg⟩
      · intro v h; rw [hk] at h; cases h
      · intro v h; rw [hk] at h; cases h
      · intro h; rw [hk] at h; cases h

theorem before_asymm {S : List (Nat × C × Res T)} {x y : Nat × C × Res T} (nd : (S.map (·.1)).Nodup) (h : Before S x y)
    (h' : Before S y x) : False := by
  have nS : S.Nodup := List.Nodup.of_map _ nd
  obtain ⟨a, b, c, rfl⟩ := h
  obtain ⟨a', b', c', e⟩ := h'
  have hxa : x ∉ a := by
    intro hm
    have := (List.nodup_append.1 nS).2.2 x hm x (by simp)
    exact this rfl
  have hya : y ∉ b ∧ y ≠ x ∧ y ∉ a := by
    refine ⟨fun hm => ?_, fun hm => ?_, fun hm => ?_⟩
    · have := (List.nodup_append.1 (List.nodup_cons.1 (List.nodup_append.1 nS).2.1).2).2.2 y hm y (by simp)
      exact this rfl
    · subst hm
      exact (List.nodup_cons.1 (List.nodup_append.1 nS).2.1).1 (by simp)
    · exact (List.nodup_append.1 nS).2.2 y hm y (by simp) rfl
  -- the part before the first `x` has no `y`
  have key : ∀ (p q p' q' : List (Nat × C × Res T)), p ++ x :: q = p' ++ x :: q' → x ∉ p → (p ++ x :: q).Nodup → p = p' := by
    intro p
    induction p with
    | nil =>
      intro q p' q' e _ nn
      cases p' with
      | nil => rfl
      | cons z p' =>
        simp only [List.nil_append, List.cons_append, List.cons.injEq] at e nn
        exact absurd (by rw [e.2]; simp) (List.nodup_cons.1 nn).1
    | cons w p ih =>
      intro q p' q' e hx nn
      cases p' with
      | nil =>
        simp only [List.nil_append, List.cons_append, List.cons.injEq] at e
        exact absurd (by simp [e.1]) hx
      | cons z p' =>
        simp only [List.cons_append, List.cons.injEq] at e nn
        rw [e.1, ih q p' q' e.2 (fun h => hx (List.mem_cons_of_mem _ h)) (List.nodup_cons.1 nn).2]
  have e2 : a ++ x :: (b ++ y :: c) = (a' ++ y :: b') ++ x :: c' := by simpa using e
  have := key a _ _ _ e2 hxa nS
  exact hya.2.2 (by rw [this]; simp)

/-- A history that is linearizable to a bag has an account. -/
theorem accounts {kind : C → Kind T} {h : List (Event C (Res T))} (hl : Linearizable (bag kind) h)
    (un : ∀ id c c', Event.inv id c ∈ h → Event.inv id c' ∈ h → c = c') : ∃ M, Accounts kind h M := by
  obtain ⟨S, l, lin⟩ := hl
  obtain ⟨M, g, b, _⟩ := book lin.legal lin.once
  have inS : ∀ id c r, Event.inv id c ∈ h → Event.ret id r ∈ h → (id, c, r) ∈ S := by
    intro id c r h1 h2
    obtain ⟨c', hm⟩ := lin.returned id r h2
    rwa [un id c c' h1 (lin.invoked _ hm)]
  refine ⟨M, ⟨?_, ?_, b.single, b.once, ?_, ?_⟩⟩
  · intro q p hm
    obtain ⟨v, c, c', k1, k2, hb⟩ := b.m q p hm
    refine ⟨⟨c', k2, lin.invoked _ hb.mem.2⟩, v, ⟨⟨c, k1, lin.invoked _ hb.mem.1⟩, fun r hr => ?_⟩, fun r hr => ?_⟩
    · have := nodup_fst lin.once (inS p c r (lin.invoked _ hb.mem.1) hr) hb.mem.1 rfl
      exact (Prod.mk.inj (Prod.mk.inj this).2).2
    · have := nodup_fst lin.once (inS q c' r (lin.invoked _ hb.mem.2) hr) hb.mem.2 rfl
      exact (Prod.mk.inj (Prod.mk.inj this).2).2
  · intro q p hm r c'' hbe
    obtain ⟨v, c, c', k1, k2, hb⟩ := b.m q p hm
    exact before_asymm lin.once hb (lin.realtime _ hb.mem.2 _ hb.mem.1 r c'' hbe)
  · rintro q v ⟨c, k, hc⟩ hr
    exact b.took q c v k (inS q c _ hc hr)
  · rintro e ⟨c, k, hc⟩ hr p v ⟨⟨c', k', hp⟩, ht⟩ ⟨r, c'', hb⟩
    have hret := hb.mem.1
    have hr' := ht r hret
    subst hr'
    exact b.empty e c p c' v k k' (lin.realtime _ (inS p c' _ hp hret) _ (inS e c _ hc hr) _ c'' hb)

/-! ## Behind the mutex -/

section
variable {g : RW.Guarded σ Unit C (Res T)}

theorem unique_inv (ro : RW.ReadsOnly g) {s : RW.St σ Unit C (Res T)} (h : RW.Reach g s) :
    ∀ id c c', Event.inv id c ∈ s.hist → Event.inv id c' ∈ s.hist → c = c' := by
  induction h with
  | init => intro id c c' h; simp [RW.start] at h
  | @step s s' h st ih =>
    obtain ⟨S, i⟩ := h.inv ro
    cases st with
    | @invoke t c0 hp =>
      intro id c c' h1 h2
      simp only [List.mem_append, List.mem_singleton, Event.inv.injEq] at h1 h2
      rcases h1 with h1 | ⟨e1, rfl⟩ <;> rcases h2 with h2 | ⟨e2, rfl⟩
      · exact ih id c c' h1 h2
      · have := i.fresh id c h1; omega
      · have := i.fresh id c' h2; omega
      · rfl
    | ret hp =>
      intro id c c' h1 h2
      simp only [List.mem_append, List.mem_singleton, reduceCtorEq, or_false] at h1 h2
      exact ih id c c' h1 h2
    | _ => exact ih
end

theorem behind_reads {init : σ} {call : σ → C → Res T → σ → Prop} : RW.ReadsOnly (behind init call) := by
  intro s c acc r s' h; simp [behind] at h

theorem behind_seq {init : σ} {call : σ → C → Res T → σ → Prop} {s s' : σ} {c : C} {r : Res T}
    (h : (RW.seqObj (behind init call)).step s c r s') : call s c r s' := by
  obtain ⟨_, _, h⟩ := h; exact h

theorem behind_live {init : σ} {call : σ → C → Res T → σ → Prop} (tot : ∀ s c, ∃ r s', call s c r s') :
    RW.Live (behind init call) := by
  intro s c acc _
  exact .inr (tot s c)

theorem behind_shrinks {init : σ} {call : σ → C → Res T → σ → Prop} : RW.Shrinks (behind init call) fun _ _ _ => 0 := by
  intro s c acc acc' h; exact h.elim

/-! ## The implementations -/

/-- A call of the slice stack is a call of `lifo`. -/
theorem slice_sim {h : Go.Hp T} (x x' : SliceC.St T) (c : SOp T) (r : Res T) (l : List T) (rep : SliceC.Rep x l.reverse)
    (st : (RW.seqObj (sliceStack h)).step x c r x') : ∃ l', (lifo T).step l c r l' ∧ SliceC.Rep x' l'.reverse := by
  obtain ⟨rt, y, e, rfl⟩ := behind_seq st
  have := SliceC.stackStep_rep rep (c.slice rt)
  rw [e] at this
  simp only at this
  refine ⟨(SliceC.stackSpec l (c.slice rt)).1, ?_, this.2⟩
  rw [this.1]
  cases c with
  | push v => exact ⟨rfl, rfl⟩
  | pop =>
    cases l with
    | nil => exact .inl ⟨rfl, rfl, rfl⟩
    | cons a l => exact .inr ⟨a, rfl, rfl⟩
  | peek =>
    cases l with
    | nil => exact ⟨rfl, .inl ⟨rfl, rfl⟩⟩
    | cons a l => exact ⟨rfl, .inr ⟨a, l, rfl, rfl⟩⟩
  | len => exact ⟨rfl, rfl⟩

theorem slice_lifo {h : Go.Hp T} {s : RW.St _ _ _ _} (r : RW.Reach (sliceStack h) s) : Linearizable (lifo T) s.hist :=
  RW.sim (fun (x : SliceC.St T) (l : List T) => SliceC.Rep x l.reverse) (SliceC.newStack_rep h) slice_sim (RW.linearizable behind_reads r)

theorem lifo_bag {h : List (Event (SOp T) (Res T))} (l : Linearizable (lifo T) h) : Linearizable (bag stackKind) h := by
  refine RW.sim (o := lifo T) (o' := bag stackKind) (fun (a b : List T) => a = b) rfl ?_ l
  rintro l l' c r _ rfl st
  refine ⟨l', ?_, rfl⟩
  cases c with
  | push v => exact .inl ⟨st.1, by rw [st.2]⟩
  | pop =>
    rcases st with st | ⟨x, rfl, rfl⟩
    · exact .inl st
    · exact .inr ⟨x, rfl, .refl _⟩
  | peek => exact st.1
  | len => exact st.1

/-- A call of the linked stack is a call of `lifoBelow`. -/
theorem below_sim (x x' : Stack.Stack T) (c : SOp T) (r : Res T) (l : List T) (h : ∃ ns, Stack.Rep x l ns)
    (st : (RW.seqObj (linkedStack T)).step x c r x') : ∃ l', (lifoBelow T).step l c r l' ∧ ∃ ns, Stack.Rep x' l' ns := by
  obtain ⟨ns, rep⟩ := h
  obtain ⟨rt, e⟩ := behind_seq st
  have := Stack.step_rep rep (c.linked rt)
  rw [e] at this
  refine ⟨(Stack.specStep l (c.linked rt)).1, ?_, this.2⟩
  simp only at this
  rw [this.1]
  cases c with
  | push v => exact ⟨rfl, rfl⟩
  | pop =>
    match l with
    | [] => exact .inl ⟨rfl, rfl, rfl⟩
    | [a] => exact .inr (.inl ⟨a, rfl, rfl, rfl⟩)
    | a :: b :: l => exact .inr (.inr ⟨a, b, l, rfl, rfl, rfl⟩)
  | peek =>
    cases l with
    | nil => exact ⟨rfl, .inl ⟨rfl, rfl⟩⟩
    | cons a l => exact ⟨rfl, .inr ⟨a, l, rfl, rfl⟩⟩
  | len => exact ⟨rfl, rfl⟩

theorem linked_below {s : RW.St _ _ _ _} (r : RW.Reach (linkedStack T) s) : Linearizable (lifoBelow T) s.hist :=
  RW.sim (fun (x : Stack.Stack T) (l : List T) => ∃ ns, Stack.Rep x l ns) ⟨[], Stack.new_rep⟩ below_sim (RW.linearizable behind_reads r)

/-- What the ring is, with the number of elements accepted so far. -/
def worn (T : Type) [Inhabited T] (n : Nat) : Obj (Nat × List T) (QOp T) (Res T) :=
  ⟨(0, []), fun x c r x' => x' = (Ring.realStep n x.1 x.2 c.ring).1 ∧ r = ofRing (Ring.realStep n x.1 x.2 c.ring).2⟩

theorem ring_worn {n : Int} (h0 : 0 < n) (h1 : n < 2 ^ 63 - 1) {q : Ring.Ring T} (hq : Ring.new n = .ret (some q))
    {s : RW.St _ _ _ _} (r : RW.Reach (ringQueue q) s) : Linearizable (worn T n.toNat) s.hist := by
  obtain ⟨q', hq', rep0⟩ := Ring.new_rep (T := T) h0 h1
  rw [hq] at hq'; cases hq'
  refine RW.sim (fun (x : Ring.Ring T) (y : Nat × List T) => Ring.Rep n.toNat y.1 x y.2) rep0 ?_ (RW.linearizable behind_reads r)
  rintro x x' c r y rep st
  obtain ⟨z, e, rfl⟩ := behind_seq st
  have := Ring.step_rep rep (by omega) c.ring
  rw [e] at this
  simp only at this
  exact ⟨_, ⟨rfl, by rw [this.1]⟩, this.2⟩

theorem worn_bag {n : Nat} {h : List (Event (QOp T) (Res T))} (l : Linearizable (worn T n) h) : Linearizable (bag queueKind) h := by
  refine RW.sim (o := worn T n) (fun (x : Nat × List T) (l : List T) => l = x.2) rfl ?_ l
  rintro ⟨a, l0⟩ _ c r l hl ⟨rfl, rfl⟩
  simp only at hl
  subst hl
  refine ⟨_, ?_, rfl⟩
  cases c with
  | enqueue v =>
    simp only [bag, queueKind, QOp.ring, Ring.realStep]
    split
    · exact .inl ⟨rfl, List.perm_append_comm (l₁ := l) (l₂ := [v])⟩
    · split
      · exact .inr ⟨by simp [ofRing], rfl⟩
      · exact .inr ⟨by simp [ofRing], rfl⟩
  | dequeue =>
    cases l with
    | nil => exact .inl ⟨rfl, rfl, rfl⟩
    | cons x l => exact .inr ⟨x, rfl, .refl _⟩
  | peek => rfl
  | isEmpty => rfl

/-- The entries of a run that put something in. -/
def putsS (S : List (Nat × QOp T × Res T)) : List Nat :=
  S.filterMap fun e => match queueKind e.2.1 with | .put _ => some e.1 | _ => none

theorem worn_fifo {n : Nat} {S : List (Nat × QOp T × Res T)} {x : Nat × List T} (hl : Legal (worn T n) S x) :
    (putsS S).length ≤ n → Legal (fifo T n) S x.2 ∧ x.1 = (putsS S).length ∧ x.2.length ≤ x.1 := by
  induction hl with
  | nil => intro _; exact ⟨.nil, rfl, Nat.le_refl _⟩
  | @snoc S x x' id c r _ st ih =>
    intro hle
    rw [putsS, List.filterMap_append] at hle
    obtain ⟨a, l⟩ := x
    obtain ⟨rfl, rfl⟩ := st
    have hle' : (putsS S).length ≤ n := by
      rw [List.length_append] at hle
      exact Nat.le_trans (Nat.le_add_right _ _) hle
    obtain ⟨i1, i2, i3⟩ := ih hle'
    simp only at i1 i2 i3
    have ps : ∀ e : Nat × QOp T × Res T, putsS (S ++ [e]) = putsS S ++ putsS [e] := by
      intro e; simp [putsS]
    rw [ps]
    cases c with
    | enqueue v =>
      have hlt : a < n := by
        have : (putsS S ++ [id]).length ≤ n := hle
        rw [List.length_append] at this
        simp at this
        omega
      have e : Ring.realStep n a l (QOp.ring (.enqueue v)) = ((a + 1, l ++ [v]), .bool true) := by
        simp [QOp.ring, Ring.realStep, hlt]
      simp only [e]
      refine ⟨i1.snoc (.inl ⟨rfl, by omega, rfl⟩), ?_, by simp; omega⟩
      rw [List.length_append, ← i2]; rfl
    | dequeue =>
      cases l with
      | nil => exact ⟨i1.snoc (.inl ⟨rfl, rfl, rfl⟩), by rw [List.length_append, ← i2]; rfl, i3⟩
      | cons y l =>
        refine ⟨i1.snoc (.inr ⟨y, rfl, rfl⟩), by rw [List.length_append, ← i2]; rfl, ?_⟩
        simp only [List.length_cons] at i3
        exact Nat.le_trans (Nat.le_succ _) i3
    | peek =>
      refine ⟨i1.snoc ⟨rfl, ?_⟩, by rw [List.length_append, ← i2]; rfl, i3⟩
      cases l with
      | nil => exact .inl ⟨rfl, rfl⟩
      | cons y l => exact .inr ⟨y, l, rfl, rfl⟩
    | isEmpty =>
      refine ⟨i1.snoc ⟨rfl, ?_⟩, by rw [List.length_append, ← i2]; rfl, i3⟩
      cases l with
      | nil => exact .inl ⟨rfl, rfl⟩
      | cons y l => exact .inr ⟨rfl, by simp⟩

/-- The numbers of the calls made to put something in. -/
def putsH (h : List (Event (QOp T) (Res T))) : List Nat :=
  h.filterMap fun e => match e with | .inv id c => (match queueKind c with | .put _ => some id | _ => none) | .ret _ _ => none

theorem putsH_length (h : List (Event (QOp T) (Res T))) : (putsH h).length = putsIn queueKind h := by
  induction h with
  | nil => rfl
  | cons e h ih =>
    cases e with
    | ret id r => simpa [putsH, putsIn] using ih
    | inv id c =>
      cases c <;> simp [putsH, putsIn, queueKind] at ih ⊢ <;> omega

theorem puts_le {o : Obj σ (QOp T) (Res T)} {h : List (Event (QOp T) (Res T))} {S x} (l : LinTo o h S x) :
    (putsS S).length ≤ putsIn queueKind h := by
  rw [← putsH_length]
  refine List.Subperm.length_le (List.subperm_of_subset ?_ ?_)
  · have : (putsS S).Sublist (S.map (·.1)) := by
      clear l
      induction S with
      | nil => exact .slnil
      | cons e S ih =>
        obtain ⟨id, c, r⟩ := e
        cases c <;> simp [putsS, queueKind] at ih ⊢ <;> first | exact ih.cons _ | exact ih
    exact l.once.sublist this
  · intro id hid
    obtain ⟨⟨i, c, r⟩, hm, he⟩ := List.mem_filterMap.1 hid
    refine List.mem_filterMap.2 ⟨.inv i c, l.invoked _ hm, ?_⟩
    exact he

/-! ## One goroutine -/

/-- Nobody is calling. -/
def quiet (m : σ) (next : Nat) (hist : List (Event C (Res T))) : RW.St σ Unit C (Res T) :=
  { m := m, writer := none, readers := [], pc := fun _ => .idle, next := next, hist := hist }

theorem alone {init : σ} {call : σ → C → Res T → σ → Prop} {m m' : σ} {next : Nat} {hist : List (Event C (Res T))} {c : C} {r : Res T}
    (h : RW.Reach (behind init call) (quiet m next hist)) (st : call m c r m') :
    RW.Reach (behind init call) (quiet m' (next + 1) (hist ++ [.inv next c, .ret next r])) := by
  have h1 := h.step (RW.Step.invoke (t := 0) (c := c) rfl)
  have h2 := h1.step (.lock (t := 0) (id := next) (c := c) rfl rfl rfl rfl)
  have h3 := h2.step (.access (t := 0) (id := next) (c := c) (acc := ()) (r := r) (m' := m') rfl st)
  have h4 := h3.step (.unlock (t := 0) (id := next) (c := c) (r := r) rfl rfl)
  have h5 := h4.step (.ret (t := 0) (id := next) (c := c) (r := r) rfl)
  convert h5 using 1
  simp only [quiet, RW.St.mk.injEq, true_and, List.append_assoc, List.cons_append, List.nil_append, and_true]
  funext t
  simp only [RW.setPc]
  split <;> rfl

theorem aloneND {init : σ} {call : σ → C → Res T → σ → Prop} {m m' : σ} {next : Nat} {hist : List (Event C (Res T))} {c : C} {r : Res T}
    (h : ReachND (behind init call) (quiet m next hist)) (st : call m c r m') (hr : r ≠ .panic) :
    ReachND (behind init call) (quiet m' (next + 1) (hist ++ [.inv next c, .ret next r])) := by
  have h1 := h.step ⟨RW.Step.invoke (t := 0) (c := c) rfl, fun t id c' hp => by simp [quiet] at hp⟩
  have h2 := h1.step ⟨.lock (t := 0) (id := next) (c := c) rfl rfl rfl rfl, fun t id c' hp => by
    exfalso; simp only [RW.setPc, quiet] at hp; split at hp <;> cases hp⟩
  have h3 := h2.step ⟨.access (t := 0) (id := next) (c := c) (acc := ()) (r := r) (m' := m') rfl st, fun t id c' hp => by
    exfalso; simp only [RW.setPc, quiet] at hp; split at hp <;> cases hp⟩
  have h4 := h3.step ⟨.unlock (t := 0) (id := next) (c := c) (r := r) rfl rfl, fun t id c' hp => by
    exfalso
    simp only [RW.setPc, quiet] at hp
    split at hp
    · simp only [RW.Pc.held.injEq] at hp; exact hr hp.2.2
    · cases hp⟩
  have h5 := h4.step ⟨.ret (t := 0) (id := next) (c := c) (r := r) rfl, fun t id c' hp => by
    exfalso; simp only [RW.setPc, quiet] at hp; split at hp <;> cases hp⟩
  convert h5 using 1
  simp only [quiet, RW.St.mk.injEq, true_and, List.append_assoc, List.cons_append, List.nil_append, and_true]
  funext t
  simp only [RW.setPc]
  split <;> rfl

/-! ## Without `defer` -/

section
variable {init : σ} {call : σ → C → Res T → σ → Prop}

theorem ReachND.reach {s : RW.St σ Unit C (Res T)} {g : RW.Guarded σ Unit C (Res T)} (h : ReachND g s) : RW.Reach g s := by
  induction h with
  | init => exact .init
  | step _ h ih => exact ih.step h.1

/-- Goroutines that do not have the lock. -/
def Outside : RW.Pc Unit C (Res T) → Prop
  | .body _ _ _ => False
  | .held _ _ _ => False
  | _ => True

/-- The lock is with a goroutine whose call panicked; `out` and `old` are what the others had to return. -/
theorem stuck_step {s0 s s' : RW.St σ Unit C (Res T)} {t id : Nat} {c : C} (r : RW.Reach (behind init call) s)
    (hp : s.pc t = .held id c .panic) (old : ∀ i x, .ret i x ∈ s.hist → .ret i x ∈ s0.hist ∨ ∃ t' c', s0.pc t' = .out i c' x)
    (out : ∀ t' i c' x, s.pc t' = .out i c' x → s0.pc t' = .out i c' x)
    (st : NoDefer (behind init call) s s') :
    s'.pc t = .held id c .panic ∧ (∀ i x, .ret i x ∈ s'.hist → .ret i x ∈ s0.hist ∨ ∃ t' c', s0.pc t' = .out i c' x) ∧
    (∀ t' i c' x, s'.pc t' = .out i c' x → s0.pc t' = .out i c' x) := by
  obtain ⟨S, inv⟩ := r.inv behind_reads
  have hw : s.writer = some t := (inv.writer t).2 (by rw [hp]; rfl)
  have only : ∀ t', (s.pc t').holds (behind init call) = some true → t' = t := by
    intro t' h
    have := (inv.writer t').2 h
    rw [hw] at this; cases this; rfl
  have keep := st.2 t id c hp
  refine ⟨keep, ?_⟩
  have st1 := st.1
  have pcs : ∀ (t1 : Nat) (p : RW.Pc Unit C (Res T)), (∀ i c' x, p ≠ .out i c' x) →
      ∀ t' i c' x, RW.setPc s.pc t1 p t' = .out i c' x → s0.pc t' = .out i c' x := by
    intro t1 p hp' t' i c' x h
    by_cases e : t' = t1
    · subst e; rw [RW.setPc_same] at h; exact absurd h (hp' _ _ _)
    · rw [RW.setPc_ne _ _ e] at h; exact out _ _ _ _ h
  cases st1 with
  | invoke h =>
    refine ⟨fun i x hm => ?_, pcs _ _ (by simp)⟩
    simp only [List.mem_append, List.mem_singleton, reduceCtorEq, or_false] at hm
    exact old i x hm
  | rlock h h1 h2 => simp [behind] at h1
  | lock h h1 h2 h3 => rw [hw] at h2; cases h2
  | iter h h1 => exact h1.elim
  | @access t1 _ _ _ _ _ h h1 =>
    have := only t1 (by rw [h]; rfl)
    subst this; rw [hp] at h; cases h
  | runlock h h1 => simp [behind] at h1
  | @unlock t1 _ _ _ h h1 =>
    have := only t1 (by rw [h]; rfl)
    subst this
    simp only [RW.setPc_same] at keep; cases keep
  | @ret t1 i1 c1 r1 h =>
    refine ⟨fun i x hm => ?_, pcs _ _ (by simp)⟩
    simp only [List.mem_append, List.mem_singleton, Event.ret.injEq] at hm
    rcases hm with hm | ⟨rfl, rfl⟩
    · exact old i x hm
    · exact .inr ⟨t1, c1, out _ _ _ _ h⟩

end

end Verif.HandOut
