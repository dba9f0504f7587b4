import Verif.ListMod.Spec
import Verif.ListExact.Lemmas
/-!
# The pointer of the loop
-/
set_option linter.unusedSectionVars false
namespace Verif.ListMod
open Verif.Linked Verif.Linked.LList Verif.ListExact

variable {T σ : Type} [Inhabited T]

theorem seg_head {m : Mem (Node T)} {h : Option Nat} {ns : List Nat} (hs : Seg m h ns none) : h = ns[0]? := by
  cases ns with
  | nil => exact hs
  | cons a ns => rw [hs.1]; rfl

theorem seg_next {m : Mem (Node T)} : ∀ {ns : List Nat} {h : Option Nat} {p a : Nat}, Seg m h ns none → ns[p]? = some a →
    (m.node a).next = ns[p + 1]?
  | [], _, _, _, _, ha => by simp at ha
  | b :: ns, _, 0, a, hs, ha => by
    simp only [List.getElem?_cons_zero, Option.some.injEq] at ha
    subst ha
    rw [List.getElem?_cons_succ]
    exact seg_head hs.2
  | b :: ns, _, p + 1, a, hs, ha => by
    rw [List.getElem?_cons_succ] at ha ⊢
    exact seg_next hs.2 ha

theorem getElem_mem_eraseIdx {ns : List Nat} {i j : Nat} (hj : j < ns.length) (h : j ≠ i) : ns[j] ∈ ns.eraseIdx i := by
  rw [List.mem_eraseIdx_iff_getElem]
  exact ⟨j, hj, h, rfl⟩

/-- `Remove` changes only nodes that are in the list after it. -/
theorem remove_node {s : LL T} {x : X T} {ns : List Nat} (r : RepX s x ns) (i : Int) {a : Nat}
    (ha : a ∉ nodesAfter x 0 ns (.remove i)) : (remove s i).1.mem.node a = s.mem.node a := by
  have hlen : x.elems.length = ns.length := by rw [r.data]; simp
  have hbrk := Live.length_le r.live
  simp only [remove]
  by_cases h0 : i = 0
  · rw [if_pos h0]
    cases s.head <;> rfl
  · rw [if_neg h0, walkX r.seg (by simp only [steps]; omega)]
    by_cases h1 : 0 ≤ i - 1
    · rw [if_pos h1]
      by_cases hlt : (i - 1).toNat < ns.length
      · rw [List.getElem?_eq_getElem hlt]
        have hn := seg_next r.seg (List.getElem?_eq_getElem hlt)
        by_cases hlt2 : i.toNat < ns.length
        · have hi : (i - 1).toNat + 1 = i.toNat := by omega
          simp only [hn, hi, List.getElem?_eq_getElem hlt2]
          have hne : a ≠ ns[(i - 1).toNat] := by
            intro e
            apply ha
            simp only [nodesAfter]
            rw [if_pos (by omega), e]
            exact getElem_mem_eraseIdx hlt (by omega)
          rw [setNext_ne _ _ hne, put_node]
        · simp only [hn]
          rw [List.getElem?_eq_none (by omega)]
      · rw [List.getElem?_eq_none (by omega)]
    · rw [if_neg h1]

/-- The pointer `a` of the loop is where the specification says. -/
def CurOk (s : LL T) (ns : List Nat) (a : Nat) : Cur → Prop
  | .on p => ns[p]? = some a
  | .off q => a ∉ ns ∧ (s.mem.node a).next = ns[q]? ∧ q ≤ ns.length

theorem getElem?_take_append {ns : List Nat} {p k n a : Nat} (h : ns[p]? = some a) (hp : p ≤ k) :
    (ns.take (k + 1) ++ [n])[p]? = some a := by
  have hlt := (List.getElem?_eq_some_iff.1 h).1
  rw [List.getElem?_append_left (by rw [List.length_take]; omega), List.getElem?_take, if_pos (by omega), h]

theorem take_at (x : X T) (c : Option Nat) {k : Nat} (h : x.last = .at k) : (take x c).2.last = .at k := by
  unfold take
  repeat' split
  all_goals simp_all

theorem take_gone (x : X T) (c : Option Nat) {j : Option Nat} (h : x.last = .gone j) : ∃ j', (take x c).2.last = .gone j' := by
  unfold take
  repeat' split
  all_goals simp_all

theorem behind_cur {s' : LL T} {x : X T} {ns : List Nat} {a p n : Nat} {c : Option Nat} {c' : Cur} (h : ns[p]? = some a)
    (hc : Cur.behind p x.last = some c') : CurOk s' (behindNodes n ns (take x c).2.last) a c' := by
  cases hl : x.last with
  | none =>
    rw [hl] at hc; cases hc
    rw [(take_none x c).2 hl]; exact h
  | «at» k =>
    rw [hl] at hc
    simp only [Cur.behind] at hc
    split at hc
    · cases hc
      rw [take_at x c hl]
      exact getElem?_take_append h (by assumption)
    · cases hc
  | gone j =>
    rw [hl] at hc; cases hc
    obtain ⟨j', hj⟩ := take_gone x c hl
    rw [hj]; exact h

theorem step_cur {s : LL T} {x : X T} {ns : List Nat} {a : Nat} {c c' : Cur} (r : RepX s x ns) (hc : CurOk s ns a c)
    (op : Op T) (h : c.step x op = some c') :
    (step s op).2 = (exactStep x op).2 ∧ ∃ ns', RepX (step s op).1 (exactStep x op).1 ns' ∧ CurOk (step s op).1 ns' a c' := by
  obtain ⟨e, n, r'⟩ := step_nodes r op
  refine ⟨e, nodesAfter x n ns op, r', ?_⟩
  have hlen : x.elems.length = ns.length := by rw [r.data]; simp
  cases c with
  | on p =>
    have hp : ns[p]? = some a := hc
    cases op with
    | append v ch =>
      simp only [nodesAfter]
      simp only [Cur.step] at h
      cases hl : x.last with
      | none => rw [hl] at h; cases h
      | «at» k => rw [hl] at h; simp only at h ⊢; rw [← hl] at h; exact behind_cur hp h
      | gone j => rw [hl] at h; simp only at h ⊢; rw [← hl] at h; exact behind_cur hp h
    | insert i v ch =>
      simp only [nodesAfter]
      simp only [Cur.step] at h
      split at h
      · rename_i hi
        rw [if_pos hi]; exact behind_cur hp h
      · rename_i hi
        rw [if_neg hi]
        split at h
        · rename_i hin
          rw [if_pos hin]
          cases h
          show (ns.insertIdx i.toNat n)[_]? = some a
          rw [List.getElem?_insertIdx]
          split
          · rename_i hip
            rw [if_neg (by omega), if_neg (by omega)]
            simpa using hp
          · rw [if_pos (by omega)]; exact hp
        · rename_i hin
          rw [if_neg hin]
          cases h
          exact hp
    | remove i =>
      simp only [Cur.step] at h
      split at h
      · rename_i hin
        have hna : nodesAfter x n ns (.remove i) = ns.eraseIdx i.toNat := by
          simp only [nodesAfter]; rw [if_pos hin]
        rw [hna]
        obtain ⟨hlt, hpa⟩ := List.getElem?_eq_some_iff.1 hp
        split at h
        · rename_i hip
          cases h
          have hpi : i.toNat = p := by omega
          have hni : a ∉ ns.eraseIdx i.toNat := by
            rw [hpi, List.mem_eraseIdx_iff_getElem]
            rintro ⟨j, h2, h1, h3⟩
            rw [← hpa] at h3
            exact h1 ((List.Nodup.getElem_inj_iff r.live.nodup).1 h3)
          refine ⟨hni, ?_, ?_⟩
          · show ((remove s i).1.mem.node a).next = _
            rw [remove_node r i (by
              simp only [nodesAfter]; rw [if_pos hin]; exact hni), seg_next r.seg hp, hpi, List.getElem?_eraseIdx,
              if_neg (by omega)]
          · rw [List.length_eraseIdx_of_lt (by omega)]; omega
        · rename_i hip
          cases h
          show (ns.eraseIdx i.toNat)[_]? = some a
          rw [List.getElem?_eraseIdx]
          split
          · rename_i hlt'
            rw [if_neg (by omega), ← hp]
            congr 1
            omega
          · rw [if_pos (by omega)]; exact hp
      · rename_i hin
        cases h
        have hna : nodesAfter x n ns (.remove i) = ns := by
          simp only [nodesAfter]; rw [if_neg hin]
        rw [hna]; exact hp
    | «at» i =>
      cases h
      exact hc
    | iterate g =>
      cases h
      exact hc
    | len => cases h; exact hc
  | off q =>
    obtain ⟨h1, h2, h3⟩ := hc
    cases op with
    | append v ch => cases h
    | insert i v ch => cases h
    | remove i =>
      simp only [Cur.step] at h
      have hni : a ∉ nodesAfter x n ns (.remove i) := by
        simp only [nodesAfter]
        split
        · exact fun hm => h1 ((List.eraseIdx_sublist _ _).subset hm)
        · exact h1
      have hnode := remove_node r i hni
      split at h
      · rename_i hin
        have hna : nodesAfter x n ns (.remove i) = ns.eraseIdx i.toNat := by
          simp only [nodesAfter]; rw [if_pos hin]
        split at h
        · cases h
        · rename_i hiq
          cases h
          rw [hna] at hni ⊢
          refine ⟨hni, ?_, ?_⟩
          · show ((remove s i).1.mem.node a).next = _
            rw [hnode, h2, List.getElem?_eraseIdx]
            split
            · rename_i hlt
              rw [if_neg (by omega)]
              congr 1
              omega
            · rw [if_pos (by omega)]
          · rw [List.length_eraseIdx_of_lt (by omega)]; split <;> omega
      · rename_i hin
        cases h
        have hna : nodesAfter x n ns (.remove i) = ns := by
          simp only [nodesAfter]; rw [if_neg hin]
        rw [hna]
        refine ⟨h1, ?_, h3⟩
        show ((remove s i).1.mem.node a).next = _
        rw [hnode, h2]
    | «at» i =>
      cases h
      refine ⟨h1, Eq.trans ?_ h2, h3⟩
      simp only [step, at']
      split <;> rfl
    | iterate g =>
      cases h
      refine ⟨h1, Eq.trans ?_ h2, h3⟩
      simp only [step, iterate]
      split <;> rfl
    | len => cases h; exact ⟨h1, h2, h3⟩

theorem exec_cur (p : Prog σ T) : ∀ {s : LL T} {x : X T} {ns : List Nat} {a : Nat} {c : Cur} {x' : X T} {c' : Cur} {t : σ}
    {go : Bool}, RepX s x ns → CurOk s ns a c → specExec x c p = some (x', c', t, go) →
    (exec s p).2 = (t, go) ∧ ∃ ns', RepX (exec s p).1 x' ns' ∧ CurOk (exec s p).1 ns' a c' := by
  induction p with
  | done s0 go0 =>
    intro s x ns a c x' c' t go r hc h
    cases h
    exact ⟨rfl, ns, r, hc⟩
  | call op k ih =>
    intro s x ns a c x' c' t go r hc h
    simp only [specExec] at h
    obtain ⟨c1, h1, h2⟩ := Option.bind_eq_some_iff.1 h
    obtain ⟨e, ns1, r1, hc1⟩ := step_cur r hc op h1
    rw [← e] at h2
    exact ih _ r1 hc1 h2

theorem CurOk.next {s : LL T} {x : X T} {ns : List Nat} {a : Nat} {c : Cur} (r : RepX s x ns) (h : CurOk s ns a c) :
    (s.mem.node a).next = ns[c.next]? := by
  cases c with
  | on p => exact seg_next r.seg h
  | off q => exact h.2.1

/-- The loop and its specification. -/
structure Same (t : It σ T) (u : SIt σ T) (ns : List Nat) : Prop where
  rep : RepX t.list u.x ns
  cur : t.cur = u.pos.bind fun p => ns[p]?
  state : t.state = u.state
  log : t.log = u.log

theorem round_same {f : σ → T → Prog σ T} {t : It σ T} {u u' : SIt σ T} {ns : List Nat} (h : Same t u ns)
    (hr : specRound f u = some u') : ∃ ns', Same (round f t) u' ns' := by
  obtain ⟨x, pos, st, log⟩ := u
  obtain ⟨l, cur, st', log'⟩ := t
  obtain ⟨r, hcur, rfl, rfl⟩ := h
  simp only at r hcur
  have hd : ∀ p : Nat, x.elems[p]? = (ns[p]?).map fun a => (l.mem.node a).data := fun p => by rw [r.data]; simp
  cases pos with
  | none =>
    cases hr
    simp only [Option.bind_none] at hcur
    subst hcur
    exact ⟨ns, r, rfl, rfl, rfl⟩
  | some p =>
    simp only [Option.bind_some] at hcur
    cases ha : ns[p]? with
    | none =>
      rw [ha] at hcur
      subst hcur
      have : specRound f (⟨x, some p, st', log'⟩ : SIt σ T) = some ⟨x, some p, st', log'⟩ := by
        simp [specRound, hd, ha]
      rw [this] at hr
      cases hr
      exact ⟨ns, r, by simp [round, ha], rfl, rfl⟩
    | some a =>
      rw [ha] at hcur
      subst hcur
      simp only [specRound, Option.bind_some, hd, ha, Option.map_some] at hr
      obtain ⟨⟨x', c', t, go⟩, h1, h2⟩ := Option.map_eq_some_iff.1 hr
      obtain ⟨e, ns', r', hc'⟩ := exec_cur _ r (show CurOk l ns a (.on p) from ha) h1
      have e1 : (exec l (f st' (l.mem.node a).data)).2.1 = t := by rw [e]
      have e2 : (exec l (f st' (l.mem.node a).data)).2.2 = go := by rw [e]
      subst h2
      refine ⟨ns', ?_, ?_, ?_, rfl⟩
      · exact r'
      · simp only [round, e2]
        cases go with
        | true => simpa using hc'.next r'
        | false => rfl
      · simp only [round, e1]

theorem rounds_same {f : σ → T → Prog σ T} (n : Nat) : ∀ {t : It σ T} {u u' : SIt σ T} {ns : List Nat}, Same t u ns →
    specRounds f u n = some u' → ∃ ns', Same ((round f)^[n] t) u' ns' := by
  induction n with
  | zero => intro t u u' ns h hr; cases hr; exact ⟨ns, h⟩
  | succ n ih =>
    intro t u u' ns h hr
    simp only [specRounds] at hr
    obtain ⟨u1, h1, h2⟩ := Option.bind_eq_some_iff.1 hr
    obtain ⟨ns1, s1⟩ := round_same h h1
    rw [Function.iterate_succ_apply]
    exact ih s1 h2

theorem Same.ended {t : It σ T} {u : SIt σ T} {ns : List Nat} (h : Same t u ns) : t.cur = none ↔ u.ended := by
  have hlen : u.x.elems.length = ns.length := by rw [h.rep.data]; simp
  rw [h.cur]
  unfold SIt.ended
  cases u.pos with
  | none => simp
  | some p => simp [hlen]

theorem after_rep {s : LL T} {x : X T} {ns : List Nat} (r : RepX s x ns) (ops : List (Op T)) :
    ∃ ns', RepX (after s ops) (exactAfter x ops) ns' := by
  induction ops generalizing s x ns with
  | nil => exact ⟨ns, r⟩
  | cons op ops ih =>
    obtain ⟨_, ns', r'⟩ := step_rep r op
    exact ih r'

theorem start_same {l : LL T} {x : X T} {ns : List Nat} (r : RepX l x ns) (s : σ) :
    Same (⟨l, l.head, s, []⟩ : It σ T) ⟨x, some 0, s, []⟩ ns := ⟨r, seg_head r.seg, rfl, rfl⟩

/-! ## The callback that throws out -/

theorem throwOut_round {P : T → Bool} {x : X T} {kept rest : List T} {v : T} {log : List T}
    (h : x.elems = kept ++ v :: rest) :
    ∃ x', x'.elems = (if P v then kept else kept ++ [v]) ++ rest ∧ x'.len = (if P v then x.len - 1 else x.len) ∧
      specRound (throwOut P) (⟨x, some kept.length, kept.length, log⟩ : SIt Nat T) =
        some ⟨x', some (if P v then kept else kept ++ [v]).length, (if P v then kept else kept ++ [v]).length, log ++ [v]⟩ := by
  have hv : x.elems[kept.length]? = some v := by rw [h]; simp
  have hlt : kept.length < x.elems.length := by rw [h]; simp
  cases hP : P v with
  | true =>
    have hes : (exactStep x (.remove kept.length)).1 =
        ⟨x.elems.eraseIdx kept.length, x.last.removed kept.length, x.len - 1, x.pool + 1⟩ := by
      simp only [exactStep]
      rw [if_pos (by omega)]
      simp
    refine ⟨(exactStep x (.remove kept.length)).1, ?_, ?_, ?_⟩
    · rw [hes]
      simp only [if_true, h]
      rw [List.eraseIdx_append_of_length_le (by simp)]
      simp
    · rw [hes]; rfl
    · simp only [specRound, Option.bind_some, hv, Option.map_some, throwOut, hP, if_true, specExec, Cur.step]
      rw [if_pos (by omega)]
      rfl
  | false =>
    refine ⟨x, by simp [h], by simp, ?_⟩
    simp [specRound, hv, throwOut, hP, specExec, Cur.next]

theorem throwOut_rounds {P : T → Bool} (rest : List T) : ∀ {x : X T} {kept : List T} {log : List T},
    x.elems = kept ++ rest →
    ∃ x', specRounds (throwOut P) (⟨x, some kept.length, kept.length, log⟩ : SIt Nat T) rest.length =
        some ⟨x', some x'.elems.length, x'.elems.length, log ++ rest⟩ ∧
      x'.elems = kept ++ rest.filter (fun v => !P v) ∧ x'.len = x.len - (rest.filter P).length := by
  induction rest with
  | nil =>
    intro x kept log h
    have hk : x.elems = kept := by simpa using h
    exact ⟨x, by simp [specRounds, hk], by simpa using h, by simp⟩
  | cons v rest ih =>
    intro x kept log h
    obtain ⟨x1, h1, h2, h3⟩ := throwOut_round (P := P) (log := log) h
    obtain ⟨x', h4, h5, h6⟩ := ih (log := log ++ [v]) h1
    refine ⟨x', ?_, ?_, ?_⟩
    · simp only [List.length_cons, specRounds, h3, Option.bind_some]
      rw [h4]
      simp
    · rw [h5]
      cases hP : P v <;> simp [hP]
    · rw [h6, h2]
      cases hP : P v
      · simp [hP]
      · simp [hP]; omega

end Verif.ListMod
