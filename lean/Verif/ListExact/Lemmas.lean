import Verif.ListExact.Spec
/-!
# The linked list in all histories
-/
set_option linter.unusedSectionVars false
namespace Verif.ListExact
open Verif.Linked Verif.Linked.LList

variable {T : Type} [Inhabited T]

/-- Where `tail` points. -/
def TailOk (m : Mem (Node T)) (tail : Option Nat) (ns : List Nat) : Last → Prop
  | .none => tail = none
  | .at k => ∃ a, tail = some a ∧ ns[k]? = some a
  | .gone (some j) => ∃ a, tail = some a ∧ m.pool[j]? = some a
  | .gone none => ∃ a, tail = some a ∧ a < m.brk ∧ a ∉ ns ∧ a ∉ m.pool

structure RepX (s : LL T) (x : X T) (ns : List Nat) : Prop where
  live : Live s.mem ns
  seg : Seg s.mem s.head ns none
  data : x.elems = ns.map fun a => (s.mem.node a).data
  len : s.length = x.len
  pool : s.mem.pool.length = x.pool
  tail : TailOk s.mem s.tail ns x.last

theorem map_insertIdx {A B : Type} (f : A → B) (l : List A) (i : Nat) (a : A) :
    (l.insertIdx i a).map f = (l.map f).insertIdx i (f a) := by
  induction l generalizing i with
  | nil => cases i <;> simp
  | cons b l ih => cases i <;> simp [ih]

theorem map_eraseIdx {A B : Type} (f : A → B) (l : List A) (i : Nat) :
    (l.eraseIdx i).map f = (l.map f).eraseIdx i := by
  induction l generalizing i with
  | nil => simp
  | cons b l ih => cases i <;> simp [ih]

theorem eraseIdx_perm {A : Type} (l : List A) (i : Nat) (h : i < l.length) : (l[i] :: l.eraseIdx i).Perm l := by
  induction l generalizing i with
  | nil => simp at h
  | cons b l ih =>
    cases i with
    | zero => simp
    | succ i =>
      simp only [List.getElem_cons_succ, List.eraseIdx_cons_succ]
      exact (List.Perm.swap _ _ _).trans ((ih i (by simpa using h)).cons b)

theorem erase_getElem {A : Type} [DecidableEq A] (l : List A) (i : Nat) (h : i < l.length) (hn : l.Nodup) :
    l.erase l[i] = l.eraseIdx i := hn.erase_getElem i h

/-! ### Getting a node -/

/-- What a node from the pool may be. -/
structure Got (s : LL T) (x : X T) (ns : List Nat) (c : Option Nat) (n : Nat) (m : Mem (Node T)) : Prop where
  live : Live m (n :: ns)
  same : ∀ b ∈ ns, m.node b = s.mem.node b
  pool : m.pool.length = (take x c).2.pool
  hit : (take x c).1 = true → s.tail = some n ∧ (take x c).2.last = .gone none ∧ ∃ j, x.last = .gone j
  miss : (take x c).1 = false → TailOk m s.tail ns (take x c).2.last ∧ s.tail ≠ some n

theorem take_elems (x : X T) (c : Option Nat) : (take x c).2.elems = x.elems := by
  unfold take; repeat' split
  all_goals rfl

theorem take_none (x : X T) (c : Option Nat) : (take x c).2.last = .none ↔ x.last = .none := by
  unfold take
  repeat' split
  all_goals simp_all

theorem get_got {s : LL T} {x : X T} {ns : List Nat} (r : RepX s x ns) (c : Option Nat) :
    Got s x ns c (s.mem.get c).1 (s.mem.get c).2 := by
  have hg := get_spec s.mem c r.live
  have key : (∃ i, c = some i ∧ i < s.mem.pool.length) ∨ (take x c = (false, x) ∧ c.bind (s.mem.pool[·]?) = none) := by
    cases c with
    | none => right; exact ⟨rfl, rfl⟩
    | some i =>
      by_cases hi : i < s.mem.pool.length
      · exact .inl ⟨i, rfl, hi⟩
      · right
        refine ⟨?_, ?_⟩
        · unfold take; rw [← r.pool]; simp [hi]
        · simp; omega
  rcases key with ⟨i, rfl, hi⟩ | ⟨ht, hc⟩
  · have hget : s.mem.get (some i) = (s.mem.pool[i], { s.mem with pool := s.mem.pool.erase s.mem.pool[i] }) := by
      simp [Mem.get, hi]
    rw [hget] at hg ⊢
    have her := erase_getElem s.mem.pool i hi r.live.poolNodup
    have hpl : x.pool = s.mem.pool.length := r.pool.symm
    have hns : ∀ a ∈ ns, a ≠ s.mem.pool[i] := fun a ha e => r.live.disj a ha (e ▸ List.getElem_mem hi)
    have htk : ∀ P : Bool × X T → Prop, (match x.last with
        | .gone (some j) =>
          if i = j then P (true, { x with last := .gone none, pool := x.pool - 1 })
          else P (false, { x with last := .gone (some (if i < j then j - 1 else j)), pool := x.pool - 1 })
        | _ => P (false, { x with pool := x.pool - 1 })) → P (take x (some i)) := by
      intro P hP
      simp only [take]
      rw [if_pos (by omega)]
      cases hx : x.last with
      | none => rw [hx] at hP; exact hP
      | «at» k => rw [hx] at hP; exact hP
      | gone j =>
        rw [hx] at hP
        cases j with
        | none => exact hP
        | some j =>
          simp only at hP ⊢
          split
          · rename_i h; rw [if_pos h] at hP; exact hP
          · rename_i h; rw [if_neg h] at hP; exact hP
    have hlen : (s.mem.pool.erase s.mem.pool[i]).length = x.pool - 1 := by
      rw [her, List.length_eraseIdx_of_lt hi, hpl]
    have htl := r.tail
    refine ⟨hg.1, fun b _ => rfl, ?_, ?_, ?_⟩
    · apply htk (fun t => (s.mem.pool.erase s.mem.pool[i]).length = t.2.pool)
      rw [hlen]
      repeat' split
      all_goals rfl
    · apply htk (fun t => t.1 = true → s.tail = some s.mem.pool[i] ∧ t.2.last = .gone none ∧ ∃ j, x.last = .gone j)
      split
      · rename_i j hj
        split
        · rename_i hij
          intro _
          subst hij
          rw [hj] at htl
          obtain ⟨a, h1, h2⟩ := htl
          rw [List.getElem?_eq_getElem hi] at h2
          exact ⟨by rw [h1, ← h2], rfl, _, hj⟩
        · intro h; cases h
      · intro h; cases h
    · apply htk (fun t => t.1 = false →
        TailOk { s.mem with pool := s.mem.pool.erase s.mem.pool[i] } s.tail ns t.2.last ∧ s.tail ≠ some s.mem.pool[i])
      cases hx : x.last with
      | none =>
        rw [hx] at htl
        intro _
        simp only [hx]
        refine ⟨htl, ?_⟩
        rw [show s.tail = none from htl]
        simp
      | «at» k =>
        rw [hx] at htl
        intro _
        simp only [hx]
        refine ⟨htl, ?_⟩
        obtain ⟨a, h1, h2⟩ := htl
        rw [h1]
        simpa using hns a (List.mem_of_getElem? h2)
      | gone j =>
        rw [hx] at htl
        cases j with
        | none =>
          intro _
          simp only [hx]
          obtain ⟨a, h1, h2, h3, h4⟩ := htl
          refine ⟨⟨a, h1, h2, h3, fun h => h4 (List.mem_of_mem_erase h)⟩, ?_⟩
          rw [h1]
          intro e
          cases e
          exact h4 (List.getElem_mem hi)
        | some j =>
          obtain ⟨a, h1, h2⟩ := htl
          simp only
          split
          · intro h; cases h
          · rename_i hij
            intro _
            refine ⟨⟨a, h1, ?_⟩, ?_⟩
            · show (s.mem.pool.erase s.mem.pool[i])[_]? = some a
              rw [her, List.getElem?_eraseIdx]
              split
              · rename_i hlt
                rw [if_neg (by omega), ← h2]
                congr 1
                omega
              · rw [if_pos (by omega), h2]
            · rw [h1]
              intro e
              cases e
              obtain ⟨hj, h3⟩ := List.getElem?_eq_some_iff.1 h2
              exact hij ((List.Nodup.getElem_inj_iff r.live.poolNodup).1 h3).symm
  · have hget : s.mem.get c = (s.mem.brk, (⟨fun b => if b = s.mem.brk then default else s.mem.node b,
        s.mem.brk + 1, s.mem.pool⟩ : Mem (Node T))) := by
      simp [Mem.get, hc]
    have hlt : ∀ a, s.tail = some a → a < s.mem.brk := by
      intro a ha
      have htl := r.tail
      cases hx : x.last with
      | none => rw [hx] at htl; rw [show s.tail = none from htl] at ha; cases ha
      | «at» k =>
        rw [hx] at htl
        obtain ⟨b, h1, h2⟩ := htl
        rw [h1] at ha; cases ha
        exact r.live.lt _ (List.mem_of_getElem? h2)
      | gone j =>
        rw [hx] at htl
        cases j with
        | none => obtain ⟨b, h1, h2, _⟩ := htl; rw [h1] at ha; cases ha; exact h2
        | some j => obtain ⟨b, h1, h2⟩ := htl; rw [h1] at ha; cases ha; exact r.live.poolLt _ (List.mem_of_getElem? h2)
    rw [hget] at hg ⊢
    refine ⟨hg.1, hg.2, ?_, ?_, ?_⟩
    · rw [ht]; exact r.pool
    · rw [ht]; intro h; cases h
    · rw [ht]
      intro _
      refine ⟨?_, fun e => absurd (hlt _ e) (by omega)⟩
      have htl := r.tail
      cases hx : x.last with
      | none => rw [hx] at htl; exact htl
      | «at» k => rw [hx] at htl; exact htl
      | gone j =>
        rw [hx] at htl
        cases j with
        | none =>
          obtain ⟨a, h1, h2, h3⟩ := htl
          exact ⟨a, h1, by simp only; omega, h3⟩
        | some j => exact htl

/-! ### Behind the last node -/

/-- After a node is taken and written, the chain is as it was. -/
theorem Got.chain {s : LL T} {x : X T} {ns : List Nat} {c : Option Nat} {n : Nat} {m : Mem (Node T)} (r : RepX s x ns)
    (g : Got s x ns c n m) (v : T) (p : Option Nat) :
    Seg ((m.setData n v).setNext n p) s.head ns none ∧
      (∀ a ∈ ns, ((m.setData n v).setNext n p).node a = s.mem.node a) := by
  have hn := (List.nodup_cons.1 g.live.nodup).1
  have h : ∀ a ∈ ns, ((m.setData n v).setNext n p).node a = s.mem.node a := by
    intro a ha
    have hne : a ≠ n := fun e => hn (e ▸ ha)
    rw [setNext_ne _ _ hne, setData_ne _ _ hne, g.same a ha]
  exact ⟨r.seg.congr (fun a ha => by rw [h a ha]), h⟩

theorem live_sub {m : Mem (Node T)} {l l' : List Nat} (h : Live m l) (hs : l'.Sublist l) : Live m l' :=
  ⟨h.nodup.sublist hs, fun a ha => h.lt a (hs.subset ha), h.poolLt, h.poolNodup, fun a ha => h.disj a (hs.subset ha)⟩

/-- The nodes after `n` is put behind the last one. -/
def behindNodes (n : Nat) (ns : List Nat) : Last → List Nat
  | .at k => ns.take (k + 1) ++ [n]
  | _ => ns

theorem behind_rep {s : LL T} {x : X T} {ns : List Nat} {c : Option Nat} {n : Nat} {m : Mem (Node T)} (r : RepX s x ns)
    (g : Got s x ns c n m) (v : T) {t : Nat} (ht : s.tail = some t) :
    RepX (⟨((m.setData n v).setNext n none).setNext t (some n), s.head, some n, s.length + 1⟩ : LL T)
      (behind { (take x c).2 with len := x.len + 1 } v) (behindNodes n ns (take x c).2.last) := by
  have hn := List.nodup_cons.1 g.live.nodup
  have hch := g.chain r v none
  have hlive : Live (((m.setData n v).setNext n none).setNext t (some n)) (n :: ns) :=
    ((g.live.setData _ _).setNext _ _).setNext _ _
  have gone : t ∉ ns → (∃ j, (take x c).2.last = .gone j) → RepX
      (⟨((m.setData n v).setNext n none).setNext t (some n), s.head, some n, s.length + 1⟩ : LL T)
      (behind { (take x c).2 with len := x.len + 1 } v) (behindNodes n ns (take x c).2.last) := by
    rintro htn ⟨j, hj⟩
    rw [show behindNodes n ns (take x c).2.last = ns by rw [hj]; rfl]
    have hb : behind { (take x c).2 with len := x.len + 1 } v =
        { (take x c).2 with len := x.len + 1, last := .gone none } := by
      simp [behind, hj]
    have hd : ∀ a ∈ ns, (((m.setData n v).setNext n none).setNext t (some n)).node a = s.mem.node a := by
      intro a ha
      have hne : a ≠ t := fun e => htn (e ▸ ha)
      rw [setNext_ne _ _ hne, hch.2 a ha]
    rw [hb]
    refine ⟨live_sub hlive (List.sublist_cons_self _ _), r.seg.congr (fun a ha => by rw [hd a ha]), ?_, ?_, g.pool, ?_⟩
    · show (take x c).2.elems = _
      rw [take_elems, r.data]
      exact List.map_congr_left (fun a ha => by rw [hd a ha])
    · show s.length + 1 = x.len + 1
      rw [r.len]
    · exact ⟨n, rfl, hlive.lt n (by simp), hn.1, hlive.disj n (by simp)⟩
  cases hh : (take x c).1 with
  | true =>
    obtain ⟨h1, h2, _⟩ := g.hit hh
    rw [ht] at h1
    cases h1
    exact gone hn.1 ⟨_, h2⟩
  | false =>
    obtain ⟨h1, h2⟩ := g.miss hh
    cases hl : (take x c).2.last with
    | none => rw [hl] at h1; rw [show s.tail = none from h1] at ht; cases ht
    | gone j =>
      have hg := fun h => gone h ⟨j, hl⟩
      rw [hl] at hg
      refine hg ?_
      rw [hl] at h1
      cases j with
      | none => obtain ⟨a, e, _, h3, _⟩ := h1; rw [ht] at e; cases e; exact h3
      | some j =>
        obtain ⟨a, e, h3⟩ := h1
        rw [ht] at e; cases e
        exact fun hm => g.live.disj t (by simp [hm]) (List.mem_of_getElem? h3)
    | «at» k =>
      rw [hl] at h1
      obtain ⟨a, e, h3⟩ := h1
      rw [ht] at e; cases e
      obtain ⟨hk, h4⟩ := List.getElem?_eq_some_iff.1 h3
      have hsplit : ns = ns.take k ++ t :: ns.drop (k + 1) := by
        rw [← h4, List.cons_getElem_drop_succ, List.take_append_drop]
      have htk : ns.take (k + 1) = ns.take k ++ [t] := by
        rw [List.take_succ_eq_append_getElem hk, h4]
      have hsub : (ns.take k ++ [t]).Sublist ns := by rw [← htk]; exact List.take_sublist _ _
      have htn : t ≠ n := fun e => hn.1 (e ▸ List.mem_of_getElem? h3)
      have hnd := r.live.nodup
      rw [hsplit] at hnd
      have hxt : ∀ b ∈ ns.take k, b ≠ t := by
        intro b hb e
        subst e
        exact (List.nodup_append.1 hnd).2.2 b hb b (by simp) rfl
      have hb : behind { (take x c).2 with len := x.len + 1 } v =
          ⟨x.elems.take (k + 1) ++ [v], .at (k + 1), x.len + 1, (take x c).2.pool⟩ := by
        simp [behind, hl, take_elems]
      rw [hb]
      have hseg := hch.1
      rw [hsplit] at hseg
      obtain ⟨q, hs1, hs2, _⟩ := Seg.append.1 hseg
      have hfull : ns.take k ++ [t, n] = (ns.take k ++ [t]) ++ [n] := by simp
      have hnodes : behindNodes n ns (take x c).2.last = ns.take k ++ [t, n] := by
        rw [hl]
        simp only [behindNodes, htk, hfull]
      rw [hl] at hnodes
      rw [hnodes]
      refine ⟨?_, ?_, ?_, ?_, g.pool, ?_⟩
      · have hp : (n :: (ns.take k ++ [t])).Perm (ns.take k ++ [t, n]) := by
          rw [hfull]; exact (List.perm_append_singleton n _).symm
        exact (live_sub hlive (hsub.cons_cons n)).perm hp
      · refine Seg.append.2 ⟨q, hs1.congr (fun b hb => by rw [setNext_ne _ _ (hxt b hb)]), hs2, ?_⟩
        rw [setNext_same]
        refine ⟨rfl, ?_⟩
        rw [setNext_ne _ _ htn.symm, setNext_same]
        rfl
      · show x.elems.take (k + 1) ++ [v] = _
        rw [hfull, List.map_append, r.data, ← List.map_take, htk]
        simp only [setNext_data, List.map_cons, List.map_nil, setData_same]
        congr 1
        refine List.map_congr_left (fun b hb => ?_)
        have hbm := hsub.subset hb
        have hbn : b ≠ n := fun e => hn.1 (e ▸ hbm)
        rw [setData_ne _ _ hbn, g.same b hbm]
      · show s.length + 1 = x.len + 1
        rw [r.len]
      · refine ⟨n, rfl, ?_⟩
        have : (ns.take k).length = k := by rw [List.length_take]; omega
        rw [hfull, List.getElem?_append_right (by simp [this])]
        simp [this]

/-! ### In the middle -/

/-- The chain after the new node is linked in at position `i`. -/
theorem insert_rep {s : LL T} {x : X T} {ns : List Nat} {c : Option Nat} {n : Nat} {m : Mem (Node T)} (r : RepX s x ns)
    (g : Got s x ns c n m) (v : T) (i : Nat) (hi : i ≤ ns.length) (m' : Mem (Node T)) (head : Option Nat)
    (hbrk : m'.brk = m.brk) (hpool : m'.pool = m.pool)
    (hdata : ∀ a, (m'.node a).data = ((m.setData n v).node a).data)
    (hseg : Seg m' head (ns.insertIdx i n) none) :
    RepX (⟨m', head, s.tail, s.length + 1⟩ : LL T)
      { (take x c).2 with
        len := x.len + 1
        elems := x.elems.insertIdx i v
        last := if (take x c).1 then .at i else (take x c).2.last.inserted i } (ns.insertIdx i n) := by
  have hn := List.nodup_cons.1 g.live.nodup
  have hlive : Live m' (n :: ns) :=
    ⟨g.live.nodup, by rw [hbrk]; exact g.live.lt, by rw [hbrk, hpool]; exact g.live.poolLt, by rw [hpool]; exact g.live.poolNodup,
      by rw [hpool]; exact g.live.disj⟩
  refine ⟨hlive.perm (List.perm_insertIdx n ns hi).symm, hseg, ?_, ?_, ?_, ?_⟩
  · show x.elems.insertIdx i v = _
    rw [map_insertIdx, hdata n, setData_same, r.data]
    congr 1
    refine List.map_congr_left (fun a ha => ?_)
    have hne : a ≠ n := fun e => hn.1 (e ▸ ha)
    rw [hdata a, setData_ne _ _ hne, g.same a ha]
  · show s.length + 1 = x.len + 1
    rw [r.len]
  · show m'.pool.length = _
    rw [hpool]; exact g.pool
  · show TailOk m' s.tail _ _
    have hmem : ∀ a, a ∈ ns.insertIdx i n ↔ a = n ∨ a ∈ ns := fun a => by
      rw [(List.perm_insertIdx n ns hi).mem_iff, List.mem_cons]
    cases hh : (take x c).1 with
    | true =>
      obtain ⟨h1, _⟩ := g.hit hh
      refine ⟨n, h1, ?_⟩
      rw [List.getElem?_insertIdx]
      simp [hi]
    | false =>
      obtain ⟨h1, h2⟩ := g.miss hh
      simp only [Bool.false_eq_true, if_false]
      cases hl : (take x c).2.last with
      | none => rw [hl] at h1; exact h1
      | «at» k =>
        rw [hl] at h1
        obtain ⟨a, e, h3⟩ := h1
        refine ⟨a, e, ?_⟩
        rw [List.getElem?_insertIdx]
        split
        · rename_i hik
          rw [if_neg (by omega), if_neg (by omega)]
          simpa using h3
        · rw [if_pos (by omega)]; exact h3
      | gone j =>
        rw [hl] at h1
        cases j with
        | none =>
          obtain ⟨a, e, h3, h4, h5⟩ := h1
          refine ⟨a, e, by rw [hbrk]; exact h3, ?_, by rw [hpool]; exact h5⟩
          rw [hmem]
          rintro (h | h)
          · exact h2 (by rw [e, h])
          · exact h4 h
        | some j =>
          obtain ⟨a, e, h3⟩ := h1
          exact ⟨a, e, by rw [hpool]; exact h3⟩

theorem seg_insert {m : Mem (Node T)} {h : Option Nat} {ns : List Nat} {n p : Nat} {i : Nat} (hs : Seg m h ns none)
    (hnd : ns.Nodup) (hn : n ∉ ns) (hp : ns[i]? = some p) :
    Seg ((m.setNext n (m.node p).next).setNext p (some n)) h (ns.insertIdx (i + 1) n) none := by
  induction ns generalizing h i with
  | nil => simp at hp
  | cons a ns ih =>
    obtain ⟨h1, h2⟩ := hs
    simp only [List.mem_cons, not_or] at hn
    have hnd' := List.nodup_cons.1 hnd
    cases i with
    | zero =>
      simp only [List.getElem?_cons_zero, Option.some.injEq] at hp
      subst hp
      simp only [List.insertIdx_succ_cons, List.insertIdx_zero]
      refine ⟨h1, ?_⟩
      rw [setNext_same]
      refine ⟨rfl, ?_⟩
      rw [setNext_ne _ _ hn.1, setNext_same]
      refine h2.congr (fun b hb => ?_)
      have h3 : b ≠ a := fun e => hnd'.1 (e ▸ hb)
      have h4 : b ≠ n := fun e => hn.2 (e ▸ hb)
      rw [setNext_ne _ _ h3, setNext_ne _ _ h4]
    | succ i =>
      simp only [List.getElem?_cons_succ] at hp
      have hap : a ≠ p := fun e => hnd'.1 (e ▸ List.mem_of_getElem? hp)
      rw [List.insertIdx_succ_cons]
      refine ⟨h1, ?_⟩
      rw [setNext_ne _ _ hap, setNext_ne _ _ (fun e => hn.1 e.symm)]
      exact ih h2 hnd'.2 hn.2 hp

theorem seg_erase {m : Mem (Node T)} {h : Option Nat} {ns : List Nat} {p a : Nat} {i : Nat} (hs : Seg m h ns none)
    (hnd : ns.Nodup) (hp : ns[i]? = some p) (ha : ns[i + 1]? = some a) :
    (m.node p).next = some a ∧ Seg (m.setNext p (m.node a).next) h (ns.eraseIdx (i + 1)) none := by
  induction ns generalizing h i with
  | nil => simp at hp
  | cons b ns ih =>
    obtain ⟨h1, h2⟩ := hs
    have hnd' := List.nodup_cons.1 hnd
    cases i with
    | zero =>
      simp only [List.getElem?_cons_zero, Option.some.injEq] at hp
      subst hp
      cases ns with
      | nil => simp at ha
      | cons d ns =>
        simp only [List.getElem?_cons_succ, List.getElem?_cons_zero, Option.some.injEq] at ha
        subst ha
        obtain ⟨h3, h4⟩ := h2
        refine ⟨h3, ?_⟩
        simp only [List.eraseIdx_cons_succ, List.eraseIdx_cons_zero]
        refine ⟨h1, ?_⟩
        rw [setNext_same]
        refine h4.congr (fun e he => ?_)
        rw [setNext_ne _ _ (fun e' => hnd'.1 (by simp [← e', he]))]
    | succ i =>
      simp only [List.getElem?_cons_succ] at hp ha
      have hbp : b ≠ p := fun e => hnd'.1 (e ▸ List.mem_of_getElem? hp)
      obtain ⟨h3, h4⟩ := ih h2 hnd'.2 hp ha
      refine ⟨h3, ?_⟩
      rw [List.eraseIdx_cons_succ]
      refine ⟨h1, ?_⟩
      rw [setNext_ne _ _ hbp]
      exact h4

/-- The chain after node number `i` is taken out and put into the pool. -/
theorem erase_rep {s : LL T} {x : X T} {ns : List Nat} (r : RepX s x ns) (i : Nat) (hi : i < ns.length)
    (m' : Mem (Node T)) (head : Option Nat) (hbrk : m'.brk = s.mem.brk) (hpool : m'.pool = ns[i] :: s.mem.pool)
    (hdata : ∀ a, (m'.node a).data = (s.mem.node a).data) (hseg : Seg m' head (ns.eraseIdx i) none) :
    RepX (⟨m', head, s.tail, s.length - 1⟩ : LL T)
      ⟨x.elems.eraseIdx i, x.last.removed i, x.len - 1, x.pool + 1⟩ (ns.eraseIdx i) := by
  have hperm := eraseIdx_perm ns i hi
  have hl := put_spec (r.live.perm hperm.symm)
  refine ⟨⟨hl.nodup, by rw [hbrk]; exact hl.lt, by rw [hbrk, hpool]; exact hl.poolLt, by rw [hpool]; exact hl.poolNodup,
    by rw [hpool]; exact hl.disj⟩, hseg, ?_, ?_, ?_, ?_⟩
  · show x.elems.eraseIdx i = _
    rw [map_eraseIdx, r.data]
    congr 1
    exact List.map_congr_left (fun a _ => (hdata a).symm)
  · show s.length - 1 = x.len - 1
    rw [r.len]
  · show m'.pool.length = _
    rw [hpool, List.length_cons, r.pool]
  · show TailOk m' s.tail _ _
    have htl := r.tail
    cases hx : x.last with
    | none => rw [hx] at htl; exact htl
    | «at» k =>
      rw [hx] at htl
      obtain ⟨a, e, h3⟩ := htl
      simp only [Last.removed]
      split
      · rename_i hki
        subst hki
        refine ⟨a, e, ?_⟩
        rw [hpool]
        rw [List.getElem?_eq_getElem hi] at h3
        simpa using h3
      · refine ⟨a, e, ?_⟩
        rw [List.getElem?_eraseIdx]
        split
        · rename_i hlt
          rw [if_neg (by omega), ← h3]
          congr 1
          omega
        · rw [if_pos (by omega)]; exact h3
    | gone j =>
      rw [hx] at htl
      cases j with
      | none =>
        obtain ⟨a, e, h3, h4, h5⟩ := htl
        refine ⟨a, e, by rw [hbrk]; exact h3, fun h => h4 ((List.eraseIdx_sublist _ _).subset h), ?_⟩
        rw [hpool]
        simp only [List.mem_cons, not_or]
        exact ⟨fun h => h4 (h ▸ List.getElem_mem hi), h5⟩
      | some j =>
        obtain ⟨a, e, h3⟩ := htl
        exact ⟨a, e, by rw [hpool]; simpa using h3⟩

/-! ### The calls -/

theorem walkX {m : Mem (Node T)} {h : Option Nat} {ns : List Nat} (hs : Seg m h ns none) {k : Nat} (hk : ns.length < k)
    (target : Int) : walk m target k h 0 = some (if 0 ≤ target then ns[target.toNat]? else none) := by
  rw [walk_spec hs hk]
  simp

/-- The nodes after a call that links in the node `n`, if it links in one. -/
def nodesAfter (x : X T) (n : Nat) (ns : List Nat) : Op T → List Nat
  | .append _ c => match x.last with
    | .none => [n]
    | _ => behindNodes n ns (take x c).2.last
  | .insert i _ c =>
    if i ≠ 0 ∧ i = x.len + 1 then behindNodes n ns (take x c).2.last
    else if 0 ≤ i ∧ i ≤ x.elems.length then ns.insertIdx i.toNat n
    else ns
  | .remove i => if 0 ≤ i ∧ i < x.elems.length then ns.eraseIdx i.toNat else ns
  | _ => ns

theorem step_nodes {s : LL T} {x : X T} {ns : List Nat} (r : RepX s x ns) (op : Op T) :
    (step s op).2 = (exactStep x op).2 ∧ ∃ n, RepX (step s op).1 (exactStep x op).1 (nodesAfter x n ns op) := by
  have hlen : x.elems.length = ns.length := by rw [r.data]; simp
  have hbrk := Live.length_le r.live
  cases op with
  | append v c =>
    have g := get_got r c
    simp only [step, append]
    generalize s.mem.get c = gm at g
    obtain ⟨n, m⟩ := gm
    simp only at g ⊢
    cases ht : s.tail with
    | none =>
      have hx : x.last = .none := by
        have htl := r.tail
        cases hx : x.last with
        | none => rfl
        | «at» k => rw [hx] at htl; obtain ⟨a, e, _⟩ := htl; rw [ht] at e; cases e
        | gone j =>
          rw [hx] at htl
          cases j <;> (obtain ⟨a, e, _⟩ := htl; rw [ht] at e; cases e)
      have hx' := (take_none x c).2 hx
      simp only [exactStep, hx']
      refine ⟨trivial, n, ?_⟩
      simp only [nodesAfter, hx]
      refine ⟨?_, ⟨rfl, ?_⟩, ?_, ?_, g.pool, ⟨n, rfl, rfl⟩⟩
      · exact live_sub ((g.live.setData _ _).setNext _ _) (by simp)
      · show Seg _ _ [] none
        rw [setNext_same]; rfl
      · simp [setData_same]
      · show s.length + 1 = x.len + 1
        rw [r.len]
    | some t =>
      have hx : (take x c).2.last ≠ .none := by
        rw [Ne, take_none]
        intro hx
        have htl := r.tail
        rw [hx] at htl
        rw [show s.tail = none from htl] at ht
        cases ht
      have := behind_rep r g v ht
      simp only [exactStep]
      refine ⟨trivial, n, ?_⟩
      have hnn : x.last ≠ .none := mt (take_none x c).2 hx
      have hna : nodesAfter x n ns (.append v c) = behindNodes n ns (take x c).2.last := by
        simp only [nodesAfter]
      rw [hna]
      exact this
  | insert i v c =>
    have g := get_got r c
    simp only [step, LList.insert, exactStep]
    generalize s.mem.get c = gm at g
    obtain ⟨n, m⟩ := gm
    simp only at g ⊢
    have hn := List.nodup_cons.1 g.live.nodup
    have hch := g.chain r v none
    by_cases hi0 : i = 0
    · subst hi0
      simp only [ne_eq, not_true_eq_false, false_and, if_false, if_true, le_refl, true_and, Int.natCast_nonneg,
        Int.toNat_zero]
      refine ⟨n, ?_⟩
      rw [show nodesAfter x n ns (.insert 0 v c) = ns.insertIdx 0 n by simp [nodesAfter]]
      refine insert_rep r g v 0 (by omega) _ _ rfl rfl (fun a => by rw [setNext_data, setNext_data]) ?_
      rw [List.insertIdx_zero]
      refine ⟨rfl, ?_⟩
      rw [setNext_same]
      exact hch.1.congr (fun b hb => by
        have hne : b ≠ n := fun e => hn.1 (e ▸ hb)
        rw [setNext_ne _ _ hne])
    · simp only [hi0, if_false, ne_eq, not_false_eq_true, true_and]
      rw [r.len]
      by_cases hi1 : i = x.len + 1
      · simp only [hi1, if_true]
        cases ht : s.tail with
        | none =>
          have hx : x.last = .none := by
            have htl := r.tail
            cases hx : x.last with
            | none => rfl
            | «at» k => rw [hx] at htl; obtain ⟨a, e, _⟩ := htl; rw [ht] at e; cases e
            | gone j =>
              rw [hx] at htl
              cases j <;> (obtain ⟨a, e, _⟩ := htl; rw [ht] at e; cases e)
          have hx' := (take_none x c).2 hx
          simp only [hx]
          refine ⟨trivial, n, ?_⟩
          rw [show nodesAfter x n ns (.insert (x.len + 1) v c) = ns by
            rw [← hi1]; simp only [nodesAfter]; rw [if_pos ⟨hi0, hi1⟩, hx']; rfl]
          refine ⟨?_, hch.1, ?_, rfl, g.pool, ?_⟩
          · exact live_sub ((g.live.setData _ _).setNext _ _) (List.sublist_cons_self _ _)
          · show (take x c).2.elems = _
            rw [take_elems, r.data]
            exact List.map_congr_left (fun a ha => by rw [hch.2 a ha])
          · rw [hx']; rfl
        | some t =>
          have hx : x.last ≠ .none := by
            intro hx
            have htl := r.tail
            rw [hx] at htl
            rw [show s.tail = none from htl] at ht
            cases ht
          have := behind_rep r g v ht
          rw [r.len] at this
          simp only
          refine ⟨trivial, n, ?_⟩
          rw [show nodesAfter x n ns (.insert (x.len + 1) v c) = behindNodes n ns (take x c).2.last by
            rw [← hi1]; simp only [nodesAfter]; rw [if_pos ⟨hi0, hi1⟩]]
          exact this
      · simp only [hi1, if_false]
        have hw := walkX hch.1 (k := steps s i) (by simp only [steps]; omega) (i - 1)
        rw [hw]
        by_cases hin : 0 ≤ i ∧ i ≤ (x.elems.length : Int)
        · have hlt : (i - 1).toNat < ns.length := by omega
          have hi : i.toNat = (i - 1).toNat + 1 := by omega
          rw [if_pos (by omega : (0 : Int) ≤ i - 1), List.getElem?_eq_getElem hlt, if_pos hin]
          simp only
          refine ⟨trivial, n, ?_⟩
          rw [show nodesAfter x n ns (.insert i v c) = ns.insertIdx i.toNat n by
            simp only [nodesAfter]; rw [if_neg (fun h => hi1 h.2), if_pos hin]]
          have h := insert_rep r g v i.toNat (by omega)
            ((((m.setData n v).setNext n none).setNext n (((m.setData n v).setNext n none).node ns[(i - 1).toNat]).next).setNext
              ns[(i - 1).toNat] (some n)) s.head rfl rfl (fun a => by simp) (by
              rw [hi]
              exact seg_insert hch.1 r.live.nodup hn.1 (List.getElem?_eq_getElem hlt))
          rw [r.len] at h
          exact h
        · rw [if_neg hin]
          have hnone : (if 0 ≤ i - 1 then ns[(i - 1).toNat]? else none) = none := by
            split
            · rw [List.getElem?_eq_none]
              omega
            · rfl
          rw [hnone]
          simp only
          refine ⟨trivial, n, ?_⟩
          rw [show nodesAfter x n ns (.insert i v c) = ns by
            simp only [nodesAfter]; rw [if_neg (fun h => hi1 h.2), if_neg hin]]
          refine ⟨?_, hch.1, ?_, rfl, g.pool, ?_⟩
          · exact live_sub ((g.live.setData _ _).setNext _ _) (List.sublist_cons_self _ _)
          · show (take x c).2.elems = _
            rw [take_elems, r.data]
            exact List.map_congr_left (fun a ha => by rw [hch.2 a ha])
          · show TailOk _ s.tail ns (take x c).2.last
            cases hh : (take x c).1 with
            | true =>
              obtain ⟨h1, h2, _⟩ := g.hit hh
              rw [h2]
              exact ⟨n, h1, g.live.lt n (by simp), hn.1, g.live.disj n (by simp)⟩
            | false =>
              obtain ⟨h1, _⟩ := g.miss hh
              cases hl : (take x c).2.last with
              | none => rw [hl] at h1; exact h1
              | «at» k => rw [hl] at h1; exact h1
              | gone j => rw [hl] at h1; cases j <;> exact h1
  | remove i =>
    simp only [step, remove, exactStep]
    have hel : ∀ (h0 : 0 ≤ i) (hlt : i.toNat < ns.length), elem x.elems i = .val (s.mem.node ns[i.toNat]).data := by
      intro h0 hlt
      have : x.elems[i.toNat]? = some (s.mem.node ns[i.toNat]).data := by
        rw [r.data]; simp [hlt]
      simp only [elem, h0, if_true, this]
    have hno : RepX (⟨s.mem, s.head, s.tail, s.length - 1⟩ : LL T) { x with len := x.len - 1 } ns :=
      ⟨r.live, r.seg, r.data, by show s.length - 1 = x.len - 1; rw [r.len], r.pool, r.tail⟩
    by_cases hi0 : i = 0
    · subst hi0
      simp only [if_true]
      cases ns with
      | nil =>
        have hh : s.head = none := r.seg
        simp only [hh]
        rw [if_neg (by simp at hlen; simp [hlen])]
        rw [hh] at hno
        refine ⟨rfl, 0, ?_⟩
        rw [show nodesAfter x 0 [] (.remove 0) = [] by simp [nodesAfter]]
        exact hno
      | cons a ns =>
        have hh : s.head = some a := r.seg.1
        simp only [hh]
        rw [if_pos (by simp at hlen; omega)]
        refine ⟨(hel (le_refl _) (by simp)).symm, 0, ?_⟩
        rw [show nodesAfter x 0 (a :: ns) (.remove 0) = (a :: ns).eraseIdx 0 by
          simp only [nodesAfter]; rw [if_pos (by simp at hlen; omega)]; rfl]
        refine erase_rep r 0 (by simp) (s.mem.put a) _ rfl (by simp [Mem.put]) (fun _ => rfl) ?_
        exact r.seg.2.congr (fun _ _ => rfl)
    · simp only [hi0, if_false]
      rw [walkX r.seg (by simp only [steps]; omega)]
      by_cases hin : 0 ≤ i ∧ i < (x.elems.length : Int)
      · have hlt : i.toNat < ns.length := by omega
        have hlt' : (i - 1).toNat < ns.length := by omega
        have hi : i.toNat = (i - 1).toNat + 1 := by omega
        have hse := seg_erase r.seg r.live.nodup (List.getElem?_eq_getElem hlt')
          (by rw [← hi]; exact List.getElem?_eq_getElem hlt)
        rw [if_pos (by omega : (0 : Int) ≤ i - 1), List.getElem?_eq_getElem hlt', if_pos hin]
        simp only [hse.1]
        refine ⟨(hel hin.1 hlt).symm, 0, ?_⟩
        rw [show nodesAfter x 0 ns (.remove i) = ns.eraseIdx i.toNat by simp only [nodesAfter]; rw [if_pos hin]]
        refine erase_rep r i.toNat hlt _ _ rfl rfl (fun a => by simp) ?_
        have h4 := hse.2
        rw [← hi] at h4
        exact h4.congr (fun b hb => by
          by_cases hb' : b = ns[(i - 1).toNat]
          · subst hb'; rw [setNext_same, setNext_same]
          · rw [setNext_ne _ _ hb', setNext_ne _ _ hb', put_node])
      · rw [if_neg hin]
        have hna : nodesAfter x 0 ns (.remove i) = ns := by simp only [nodesAfter]; rw [if_neg hin]
        have hno := hna.symm ▸ hno
        by_cases h1 : 0 ≤ i - 1
        · rw [if_pos h1]
          by_cases hlt : (i - 1).toNat < ns.length
          · rw [List.getElem?_eq_getElem hlt]
            have hlast : (s.mem.node ns[(i - 1).toNat]).next = none := by
              have e : ns = ns.take (i - 1).toNat ++ [ns[(i - 1).toNat]] := by
                rw [← List.take_succ_eq_append_getElem hlt, List.take_of_length_le (by omega)]
              have hs := r.seg
              rw [e] at hs
              obtain ⟨q, _, _, h3⟩ := Seg.append.1 hs
              exact h3
            simp only [hlast]
            exact ⟨trivial, 0, hno⟩
          · rw [List.getElem?_eq_none (by omega)]
            exact ⟨rfl, 0, hno⟩
        · rw [if_neg h1]
          exact ⟨rfl, 0, hno⟩
  | «at» i =>
    simp only [step, at', exactStep]
    rw [walkX r.seg (by simp only [steps]; omega)]
    by_cases hi : 0 ≤ i
    · rw [if_pos hi]
      cases ho : ns[i.toNat]? with
      | none =>
        refine ⟨?_, 0, r⟩
        simp [elem, hi, r.data, ho]
      | some p =>
        refine ⟨?_, 0, r⟩
        simp [elem, hi, r.data, ho]
    · rw [if_neg hi]
      exact ⟨by simp [elem, hi], 0, r⟩
  | iterate f =>
    simp only [step, iterate, exactStep, visit_spec (f := f) r.seg (show _ < s.mem.brk + 1 by omega)]
    rw [r.data]
    exact ⟨rfl, 0, r⟩
  | len =>
    simp only [step, len, exactStep, r.len]
    exact ⟨trivial, 0, r⟩

theorem step_rep {s : LL T} {x : X T} {ns : List Nat} (r : RepX s x ns) (op : Op T) :
    (step s op).2 = (exactStep x op).2 ∧ ∃ ns', RepX (step s op).1 (exactStep x op).1 ns' :=
  ⟨(step_nodes r op).1, (step_nodes r op).2.elim fun _ h => ⟨_, h⟩⟩

theorem run_rep {s : LL T} {x : X T} {ns : List Nat} (r : RepX s x ns) (ops : List (Op T)) : run s ops = exactRun x ops := by
  induction ops generalizing s x ns with
  | nil => rfl
  | cons op ops ih =>
    obtain ⟨e, ns', r'⟩ := step_rep r op
    simp only [run, exactRun, e, ih r']

theorem new_rep : RepX (new : LL T) empty [] := ⟨Live.empty, rfl, rfl, rfl, rfl, rfl⟩

end Verif.ListExact
