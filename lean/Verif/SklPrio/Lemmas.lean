import Verif.SklPrio.Spec
import Verif.SklPage.Lemmas
import Verif.HandOut.Lemmas
import Verif.Conc.Later
/-!
# Lemmas for C180
-/
namespace Verif.SklPrio
open Verif.Go Verif.Conc Verif.Skl Verif.MapSpec
open Verif.Linked (Res)
open Verif.SklShare (Mem)

variable {K V : Type} [GoOrdered K] [LawfulOrdered K] [DecidableEq K] [Inhabited K] [Inhabited V] {seed : BitVec 64}

/-- `l` lists the entries of the map in ascending order. -/
structure Holds (hist : List (Op K V)) (w : World K V) (l : List (K × V)) : Prop where
  made : run (Skl.new seed) hist = .ret w
  sorted : l.Pairwise (fun a b => GoOrdered.lt a.1 b.1 = true)
  mem : ∀ k v, (k, v) ∈ l ↔ lookup hist k = some v
  get : ∀ k, Skl.get w k = .ret (lookup hist k)
  next : ∃ it, Skl.next w Skl.iterator = .ret (it, l.head?)
  len : Skl.len w = l.length

theorem holds (seed : BitVec 64) (hist : List (Op K V)) : ∃ w l, Holds (seed := seed) hist w l := by
  obtain ⟨w, nodes, e, r, h⟩ := run_rep seed hist
  obtain ⟨w', l, it2, e', hn, -, hs, hm⟩ := SklPage.listed seed hist
  rw [e] at e'
  cases e'
  refine ⟨w, l, e, hs, hm, fun k => get_spec r h k, ?_, ?_⟩
  · cases l with
    | nil => obtain ⟨it', h1, -⟩ := SklPage.nexts_cons (n := 0) hn; exact ⟨it', h1⟩
    | cons x l => obtain ⟨it', h1, -⟩ := SklPage.nexts_cons hn; exact ⟨it', h1⟩
  · have hp : l.Perm (kvs w nodes) := by
      refine (List.perm_ext_iff_of_nodup ?_ ?_).2 fun ⟨k, v⟩ => ?_
      · exact hs.imp fun {a b} hab e => by rw [e, LawfulOrdered.irrefl] at hab; cases hab
      · rw [kvs]
        exact List.Pairwise.map _ (fun a b hab e => by
          have h1 : (w.heap.mem a).key = (w.heap.mem b).key := congrArg Prod.fst e
          rw [h1, LawfulOrdered.irrefl] at hab; cases hab) r.sorted
      · rw [hm, h k v]; simp [kvs]
    rw [hp.length_eq, Skl.len, r.len]
    simp [kvs]

/-- The memory and the queue agree. -/
def Agree (m : Mem K V seed) (l : List (K × V)) : Prop := ∃ hist l', Holds (seed := seed) hist m.1 l' ∧ l.Perm l'

omit [DecidableEq K] [Inhabited K] [Inhabited V] in
theorem sorted_nodup {l : List (K × V)} (h : l.Pairwise fun a b => GoOrdered.lt a.1 b.1 = true) : l.Nodup :=
  h.imp fun {a b} hab e => by rw [e, LawfulOrdered.irrefl] at hab; cases hab

theorem Holds.det {hist : List (Op K V)} {w w' : World K V} {l l' : List (K × V)} (h : Holds (seed := seed) hist w l) (h' : Holds (seed := seed) hist w' l') : w = w' ∧ l.Perm l' := by
  have e := h.made
  rw [h'.made] at e
  cases e
  exact ⟨rfl, (List.perm_ext_iff_of_nodup (sorted_nodup h.sorted) (sorted_nodup h'.sorted)).2 fun ⟨k, v⟩ => by rw [h.mem, h'.mem]⟩

theorem Holds.of {hist : List (Op K V)} {w : World K V} (h : run (Skl.new seed) hist = .ret w) : ∃ l, Holds (seed := seed) hist w l := by
  obtain ⟨w', l, hl⟩ := holds seed hist
  have e := hl.made
  rw [h] at e
  cases e
  exact ⟨l, hl⟩

/-- After a `Set` of a new key. -/
theorem Holds.set {hist : List (Op K V)} {w : World K V} {l : List (K × V)} (h : Holds (seed := seed) hist w l) {k : K} (hk : lookup hist k = none) (v : V) :
    ∃ w' l', Skl.set w k v = .ret w' ∧ Holds (seed := seed) (hist ++ [.set k v]) w' l' ∧ l'.Perm ((k, v) :: l) := by
  obtain ⟨w', l', h'⟩ := holds seed (hist ++ [.set k v])
  have e := h'.made
  rw [run_append, h.made] at e
  have hs : Skl.set w k v = .ret w' := by
    cases hs : Skl.set w k v <;> simp_all [Skl.run, Skl.step]
  refine ⟨w', l', hs, h', (List.perm_ext_iff_of_nodup (sorted_nodup h'.sorted) ?_).2 fun ⟨k1, v1⟩ => ?_⟩
  · refine List.nodup_cons.2 ⟨fun hm => ?_, sorted_nodup h.sorted⟩
    rw [h.mem, hk] at hm
    cases hm
  · rw [h'.mem, lookup_set, List.mem_cons, h.mem]
    by_cases he : k1 = k
    · subst he; simp [hk, eq_comm]
    · simp [he]

/-- After a `Del` of the smallest key. -/
theorem Holds.del {hist : List (Op K V)} {w : World K V} {x : K × V} {l : List (K × V)} (h : Holds (seed := seed) hist w (x :: l)) :
    ∃ w' l' b, Skl.del w x.1 = .ret (w', b) ∧ Holds (seed := seed) (hist ++ [.del x.1]) w' l' ∧ l'.Perm l := by
  obtain ⟨w', l', h'⟩ := holds seed (hist ++ [.del x.1])
  have e := h'.made
  rw [run_append, h.made] at e
  obtain ⟨b, hs⟩ : ∃ b, Skl.del w x.1 = .ret (w', b) := by
    cases hs : Skl.del w x.1 with
    | ret y => obtain ⟨y, b⟩ := y; simp_all [Skl.run, Skl.step]
    | panic => simp_all [Skl.run, Skl.step]
    | hang => simp_all [Skl.run, Skl.step]
  have hc := List.pairwise_cons.1 h.sorted
  refine ⟨w', l', b, hs, h', (List.perm_ext_iff_of_nodup (sorted_nodup h'.sorted) (sorted_nodup hc.2)).2 fun ⟨k1, v1⟩ => ?_⟩
  rw [h'.mem, lookup_del]
  have hm := h.mem k1 v1
  rw [List.mem_cons] at hm
  by_cases he : k1 = x.1
  · simp only [he, if_true, reduceCtorEq, false_iff]
    intro hl
    have := hc.1 _ hl
    rw [LawfulOrdered.irrefl] at this
    cases this
  · rw [if_neg he, ← hm]
    exact ⟨fun h => h.resolve_left fun e => he (congrArg Prod.fst e), .inr⟩

omit [LawfulOrdered K] in
theorem no_key {hist : List (Op K V)} {w : World K V} {l : List (K × V)} (h : Holds (seed := seed) hist w l) {k : K} : lookup hist k = none ↔ ∀ v, (k, v) ∉ l := by
  constructor
  · intro hk v hm; rw [h.mem, hk] at hm; cases hm
  · intro hk
    cases hl : lookup hist k with
    | none => rfl
    | some v => exact absurd ((h.mem k v).2 hl) (hk v)

/-- Every call ends. -/
theorem total (m : Mem K V seed) (c : Call K V) : ∃ r m', call m c r m' := by
  obtain ⟨w, hist, hw⟩ := m
  obtain ⟨l, h⟩ := Holds.of hw
  obtain ⟨it, hn⟩ := h.next
  cases c with
  | push k v =>
    cases hl : lookup hist k with
    | some v' => exact ⟨_, ⟨w, hist, hw⟩, false, by simp [push, h.get, hl], rfl⟩
    | none =>
      obtain ⟨w', l', hs, h', -⟩ := h.set hl v
      exact ⟨_, ⟨w', _, h'.made⟩, true, by simp [push, h.get, hl, hs], rfl⟩
  | pop =>
    cases l with
    | nil => exact ⟨_, ⟨w, hist, hw⟩, none, by simp [pop, hn], rfl⟩
    | cons x l =>
      obtain ⟨w', l', b, hs, h', -⟩ := h.del
      exact ⟨_, ⟨w', _, h'.made⟩, some x, by simp [pop, hn, hs], rfl⟩
  | peek => exact ⟨_, _, _, by rw [peek, hn]; rfl, rfl, rfl⟩
  | len => exact ⟨_, _, rfl, rfl⟩

/-- A call on the memory is a call of the queue. -/
theorem sim_step (m m' : Mem K V seed) (c : Call K V) (r : Res (K × V)) (l : List (K × V)) (ag : Agree m l) (st : call m c r m') :
    ∃ l', (prio K V).step l c r l' ∧ Agree m' l' := by
  obtain ⟨hist, l0, h, hp⟩ := ag
  obtain ⟨it, hn⟩ := h.next
  cases c with
  | push k v =>
    obtain ⟨b, e, rfl⟩ := st
    cases hl : lookup hist k with
    | some v' =>
      simp only [push, h.get, hl, Outcome.bind_ret, Outcome.ret.injEq, Prod.mk.injEq] at e
      obtain ⟨e, rfl⟩ := e
      exact ⟨l, .inl ⟨⟨v', hp.mem_iff.2 ((h.mem k v').2 hl)⟩, rfl, rfl⟩, hist, l0, e ▸ h, hp⟩
    | none =>
      obtain ⟨w', l', hs, h', hp'⟩ := h.set hl v
      simp [push, h.get, hl, hs] at e
      obtain ⟨e, rfl⟩ := e
      exact ⟨l', .inr ⟨fun v' hm => (no_key h).1 hl v' (hp.mem_iff.1 hm), rfl, hp'.trans (hp.symm.cons _)⟩, _, l', e ▸ h', .refl _⟩
  | pop =>
    obtain ⟨x, e, rfl⟩ := st
    cases l0 with
    | nil =>
      simp [pop, hn] at e
      obtain ⟨e, rfl⟩ := e
      have := hp.eq_nil
      subst this
      exact ⟨[], .inl ⟨rfl, rfl, rfl⟩, hist, [], e ▸ h, .refl _⟩
    | cons y l0 =>
      obtain ⟨w', l', b, hs, h', hp'⟩ := h.del
      simp [pop, hn, hs] at e
      obtain ⟨e, rfl⟩ := e
      exact ⟨l0, .inr ⟨y, rfl, hp, (List.pairwise_cons.1 h.sorted).1⟩, _, l', e ▸ h', hp'.symm⟩
  | peek =>
    obtain ⟨x, e, rfl, rfl⟩ := st
    simp [peek, hn] at e
    subst e
    refine ⟨l, ⟨?_, rfl⟩, hist, l0, h, hp⟩
    cases l0 with
    | nil => exact .inl ⟨rfl, hp.eq_nil⟩
    | cons y l0 =>
      refine .inr ⟨y, hp.mem_iff.2 (by simp), rfl, fun z hz => ?_⟩
      rcases List.mem_cons.1 (hp.mem_iff.1 hz) with hz | hz
      · exact .inl hz
      · exact .inr ((List.pairwise_cons.1 h.sorted).1 _ hz)
  | len =>
    obtain ⟨rfl, rfl⟩ := st
    exact ⟨l, ⟨by rw [h.len, hp.length_eq], rfl⟩, hist, l0, h, hp⟩

theorem agree_new : Agree (⟨Skl.new seed, [], rfl⟩ : Mem K V seed) [] := by
  obtain ⟨l, h⟩ := Holds.of (seed := seed) (K := K) (V := V) (hist := []) rfl
  refine ⟨[], l, h, ?_⟩
  cases l with
  | nil => exact .refl _
  | cons x l =>
    have := (h.mem x.1 x.2).1 (by simp)
    cases this

omit [LawfulOrdered K] [DecidableEq K] [Inhabited K] [Inhabited V] in
theorem prio_bag [Inhabited (K × V)] {h : List (Event (Call K V) (Res (K × V)))} (l : Linearizable (prio K V) h) : Linearizable (HandOut.bag kind) h := by
  refine RW.sim (o := prio K V) (o' := HandOut.bag kind) (fun a b => a = b) rfl ?_ l
  rintro l l' c r _ rfl st
  refine ⟨l', ?_, rfl⟩
  cases c with
  | push k v =>
    rcases st with ⟨-, rfl, rfl⟩ | ⟨-, rfl, hp⟩
    · exact .inr ⟨by simp, rfl⟩
    · exact .inl ⟨rfl, hp⟩
  | pop =>
    rcases st with st | ⟨x, rfl, hp, -⟩
    · exact .inl st
    · exact .inr ⟨x, rfl, hp⟩
  | peek => exact st.2
  | len => exact st.2

omit [LawfulOrdered K] [DecidableEq K] [Inhabited K] [Inhabited V] in
/-- What was put in is there or was taken after that. -/
theorem stays {S1 : List (Nat × Call K V × Res (K × V))} {e : K × V} (ha : ∀ l', Legal (prio K V) S1 l' → e ∈ l') :
    ∀ {S2 l}, Legal (prio K V) (S1 ++ S2) l → e ∈ l ∨ ∃ q, (q, .pop, .val e) ∈ S2 := by
  intro S2
  induction S2 using List.reverseRecOn with
  | nil => intro l h; exact .inl (ha l (by simpa using h))
  | append_singleton S2 x ih =>
    intro l h
    obtain ⟨id, c, r⟩ := x
    rw [← List.append_assoc] at h
    obtain ⟨l0, h0, st⟩ := RW.legal_last h
    rcases ih h0 with hm | ⟨q, hq⟩
    · cases c with
      | push k v =>
        rcases st with ⟨-, -, rfl⟩ | ⟨-, -, hp⟩
        · exact .inl hm
        · exact .inl (hp.mem_iff.2 (List.mem_cons_of_mem _ hm))
      | pop =>
        rcases st with ⟨-, rfl, -⟩ | ⟨y, rfl, hp, -⟩
        · cases hm
        · rcases List.mem_cons.1 (hp.mem_iff.1 hm) with rfl | hm
          · exact .inr ⟨id, by simp⟩
          · exact .inl hm
      | peek => exact .inl (st.2 ▸ hm)
      | len => exact .inl (st.2 ▸ hm)
    · exact .inr ⟨q, by simp [hq]⟩

omit [LawfulOrdered K] [DecidableEq K] [Inhabited K] [Inhabited V] in
/-- What is there was there before or was put in. -/
theorem came {S1 : List (Nat × Call K V × Res (K × V))} {e : K × V} (ha : ∀ l', Legal (prio K V) S1 l' → e ∉ l') :
    ∀ {S2 l}, Legal (prio K V) (S1 ++ S2) l → e ∈ l → ∃ p, (p, .push e.1 e.2, .bool true) ∈ S2 := by
  intro S2
  induction S2 using List.reverseRecOn with
  | nil => intro l h hm; exact absurd hm (ha l (by simpa using h))
  | append_singleton S2 x ih =>
    intro l h hm
    obtain ⟨id, c, r⟩ := x
    rw [← List.append_assoc] at h
    obtain ⟨l0, h0, st⟩ := RW.legal_last h
    have go : e ∈ l0 → ∃ p, (p, .push e.1 e.2, .bool true) ∈ S2 ++ [(id, c, r)] := fun hm => by
      obtain ⟨p, hp⟩ := ih h0 hm
      exact ⟨p, by simp [hp]⟩
    cases c with
    | push k v =>
      rcases st with ⟨-, -, rfl⟩ | ⟨-, rfl, hp⟩
      · exact go hm
      · rcases List.mem_cons.1 (hp.mem_iff.1 hm) with rfl | hm
        · exact ⟨id, by simp⟩
        · exact go hm
    | pop =>
      rcases st with ⟨-, -, rfl⟩ | ⟨y, -, hp, -⟩
      · cases hm
      · exact go (hp.mem_iff.2 (List.mem_cons_of_mem _ hm))
    | peek => exact go (st.2 ▸ hm)
    | len => exact go (st.2 ▸ hm)

end Verif.SklPrio
