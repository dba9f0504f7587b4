import Verif.ListMod.Lemmas
/-!
# Callbacks that only remove
-/
set_option linter.unusedSectionVars false
namespace Verif.ListMod
open Verif.Linked Verif.Linked.LList Verif.ListExact

variable {T σ : Type} [Inhabited T]

theorem remove_next {s : LL T} {x : X T} {ns : List Nat} (r : RepX s x ns) (i : Int) :
    (∀ a, ((remove s i).1.mem.node a).data = (s.mem.node a).data) ∧
    ((∀ a, ((remove s i).1.mem.node a).next = (s.mem.node a).next) ∨
      ∃ (k p b : Nat), i = (k + 1 : Nat) ∧ ns[k]? = some p ∧ ns[k + 1]? = some b ∧
        ((remove s i).1.mem.node p).next = (s.mem.node b).next ∧
        ∀ a, a ≠ p → ((remove s i).1.mem.node a).next = (s.mem.node a).next) := by
  have hbrk := Live.length_le r.live
  simp only [remove]
  by_cases h0 : i = 0
  · rw [if_pos h0]
    cases s.head <;> exact ⟨fun _ => rfl, .inl fun _ => rfl⟩
  · rw [if_neg h0, walkX r.seg (by simp only [steps]; omega)]
    by_cases h1 : 0 ≤ i - 1
    · rw [if_pos h1]
      by_cases hlt : (i - 1).toNat < ns.length
      · rw [List.getElem?_eq_getElem hlt]
        have hn := seg_next r.seg (List.getElem?_eq_getElem hlt)
        by_cases hlt2 : (i - 1).toNat + 1 < ns.length
        · simp only [hn, List.getElem?_eq_getElem hlt2]
          refine ⟨fun a => by rw [setNext_data, put_node], .inr ⟨(i - 1).toNat, _, _, by omega, List.getElem?_eq_getElem hlt,
            List.getElem?_eq_getElem hlt2, ?_, ?_⟩⟩
          · rw [setNext_same]
          · intro a ha
            rw [setNext_ne _ _ ha, put_node]
        · simp only [hn]
          rw [List.getElem?_eq_none (by omega)]
          exact ⟨fun _ => rfl, .inl fun _ => rfl⟩
      · rw [List.getElem?_eq_none (by omega)]
        exact ⟨fun _ => rfl, .inl fun _ => rfl⟩
    · rw [if_neg h1]
      exact ⟨fun _ => rfl, .inl fun _ => rfl⟩

/-- All nodes that were in the list at the start still lead to later ones, past nodes that are no longer in the list. -/
structure Order (s : LL T) (ns0 ns : List Nat) (d : Nat → T) : Prop where
  nodup : ns0.Nodup
  sub : ns.Sublist ns0
  data : ∀ a, (s.mem.node a).data = d a
  next : ∀ (i a : Nat), ns0[i]? = some a → ∃ j, i < j ∧ j ≤ ns0.length ∧ (s.mem.node a).next = ns0[j]? ∧
    ∀ (k b : Nat), i < k → k < j → ns0[k]? = some b → b ∉ ns

theorem idx_eq {l : List Nat} (h : l.Nodup) {i j a : Nat} (hi : l[i]? = some a) (hj : l[j]? = some a) : i = j := by
  obtain ⟨h1, h2⟩ := List.getElem?_eq_some_iff.1 hi
  obtain ⟨h3, h4⟩ := List.getElem?_eq_some_iff.1 hj
  exact (List.Nodup.getElem_inj_iff h).1 (h2.trans h4.symm)

theorem Order.remove {s : LL T} {x : X T} {ns0 ns : List Nat} {d : Nat → T} (r : RepX s x ns) (o : Order s ns0 ns d) (i : Int) :
    Order (remove s i).1 ns0 (nodesAfter x 0 ns (.remove i)) d := by
  have hlen : x.elems.length = ns.length := by rw [r.data]; simp
  obtain ⟨hd, hn⟩ := remove_next r i
  have hsub : (nodesAfter x 0 ns (.remove i)).Sublist ns := by
    simp only [nodesAfter]
    split
    · exact List.eraseIdx_sublist _ _
    · exact List.Sublist.refl _
  refine ⟨o.nodup, hsub.trans o.sub, fun a => by rw [hd, o.data], ?_⟩
  intro e a ha
  obtain ⟨j, h1, h2, h3, h4⟩ := o.next e a ha
  rcases hn with hn | ⟨k, p, b, hk, hp, hb, hpn, hn⟩
  · exact ⟨j, h1, h2, by rw [hn, h3], fun k c hk1 hk2 hk3 hm => h4 k c hk1 hk2 hk3 (hsub.subset hm)⟩
  · by_cases hap : a = p
    · subst hap
      have hnb : (s.mem.node a).next = some b := by rw [seg_next r.seg hp, hb]
      rw [hnb] at h3
      obtain ⟨j', g1, g2, g3, g4⟩ := o.next j b h3.symm
      refine ⟨j', by omega, g2, by rw [hpn, g3], ?_⟩
      intro k' c hk1 hk2 hk3 hm
      rcases Nat.lt_trichotomy k' j with hlt | rfl | hgt
      · exact h4 k' c hk1 hlt hk3 (hsub.subset hm)
      · rw [← h3] at hk3
        cases hk3
        have hlt := (List.getElem?_eq_some_iff.1 hb).1
        simp only [nodesAfter] at hm
        rw [if_pos (by omega), List.mem_eraseIdx_iff_getElem] at hm
        obtain ⟨q, q1, q2, q3⟩ := hm
        apply q2
        have := idx_eq r.live.nodup (List.getElem?_eq_some_iff.2 ⟨q1, q3⟩) hb
        omega
      · exact g4 k' c hgt hk2 hk3 (hsub.subset hm)
    · exact ⟨j, h1, h2, by rw [hn a hap, h3], fun k c hk1 hk2 hk3 hm => h4 k c hk1 hk2 hk3 (hsub.subset hm)⟩

theorem Order.congr {s s' : LL T} {ns0 ns : List Nat} {d : Nat → T} (o : Order s ns0 ns d) (h : s' = s) : Order s' ns0 ns d := h ▸ o

theorem at_list (s : LL T) (i : Int) : (step s (.at i)).1 = s := by
  simp only [step, at']; split <;> rfl

theorem iterate_list (s : LL T) (g : List T → Bool) : (step s (.iterate g)).1 = s := by
  simp only [step, iterate]; split <;> rfl

theorem exec_order {p : Prog σ T} (hp : Removes p) : ∀ {s : LL T} {x : X T} {ns0 ns : List Nat} {d : Nat → T}, RepX s x ns →
    Order s ns0 ns d → ∃ x' ns', RepX (exec s p).1 x' ns' ∧ Order (exec s p).1 ns0 ns' d ∧ ns'.Sublist ns := by
  induction hp with
  | done t go => intro s x ns0 ns d r o; exact ⟨x, ns, r, o, List.Sublist.refl _⟩
  | remove i k _ ih =>
    intro s x ns0 ns d r o
    obtain ⟨_, n, r'⟩ := step_nodes r (.remove i)
    obtain ⟨x', ns', h1, h2, h3⟩ := ih _ r' (o.remove r i)
    refine ⟨x', ns', h1, h2, h3.trans ?_⟩
    simp only [nodesAfter]
    split
    · exact List.eraseIdx_sublist _ _
    · exact List.Sublist.refl _
  | look i k _ ih =>
    intro s x ns0 ns d r o
    have h := ih (step s (.at i)).2 r o
    simp only [exec, at_list]
    exact h
  | iterate g k _ ih =>
    intro s x ns0 ns d r o
    have h := ih (step s (.iterate g)).2 r o
    simp only [exec, iterate_list]
    exact h
  | len k _ ih => intro s x ns0 ns d r o; exact ih _ r o

/-- After some rounds: the values handed out are those of `vis`, nodes that were in the list at the start; the pointer is at number `k` of
these, or the callback said stop. All nodes before `k` that are still in the list were visited. -/
structure Sweep (t : It σ T) (ns0 : List Nat) (d : Nat → T) (stopped : Bool) (vis : List Nat) (k : Nat) (x : X T)
    (ns : List Nat) : Prop where
  rep : RepX t.list x ns
  ord : Order t.list ns0 ns d
  log : t.log = vis.map d
  sub : vis.Sublist (ns0.take k)
  all : ∀ a ∈ ns0.take k, a ∈ ns → a ∈ vis
  cur : t.cur = if stopped then none else ns0[k]?
  le : k ≤ ns0.length

theorem take_snoc {l : List Nat} {k a : Nat} (h : l[k]? = some a) : l.take (k + 1) = l.take k ++ [a] := by
  obtain ⟨h1, h2⟩ := List.getElem?_eq_some_iff.1 h
  rw [List.take_succ_eq_append_getElem h1, h2]

theorem round_sweep {f : σ → T → Prog σ T} (hf : ∀ s v, Removes (f s v)) {t : It σ T} {ns0 : List Nat} {d : Nat → T}
    {stopped : Bool} {vis : List Nat} {k : Nat} {x : X T} {ns : List Nat} (w : Sweep t ns0 d stopped vis k x ns) {a : Nat}
    (ha : t.cur = some a) :
    ∃ stopped' vis' k' x' ns', k < k' ∧ Sweep (round f t) ns0 d stopped' vis' k' x' ns' ∧
      (stopped' = true → (exec t.list (f t.state (t.list.mem.node a).data)).2.2 = false) := by
  obtain ⟨l, cur, st, log⟩ := t
  simp only at ha
  subst ha
  obtain ⟨r, o, hlog, hsub, hall, hcur, hle⟩ := w
  simp only at r o hlog hcur
  have hns : stopped = false := by
    cases stopped with
    | false => rfl
    | true => simp at hcur
  subst hns
  have hk : ns0[k]? = some a := by simpa using hcur.symm
  obtain ⟨x', ns', r', o', hss⟩ := exec_order (hf st (l.mem.node a).data) r o
  obtain ⟨j, j1, j2, j3, j4⟩ := o'.next k a hk
  refine ⟨!(exec l (f st (l.mem.node a).data)).2.2, vis ++ [a], j, x', ns', j1, ?_, by simp⟩
  have htk : (ns0.take (k + 1)).Sublist (ns0.take j) := by
    rw [show ns0.take (k + 1) = (ns0.take j).take (k + 1) by rw [List.take_take]; congr 1; omega]
    exact List.take_sublist _ _
  refine ⟨r', o', ?_, ?_, ?_, ?_, j2⟩
  · simp only [round, hlog, List.map_append, List.map_cons, List.map_nil, o.data]
  · refine List.Sublist.trans ?_ htk
    rw [take_snoc hk]
    exact hsub.append (List.Sublist.refl _)
  · intro b hb hbn
    obtain ⟨i, hi⟩ := List.mem_iff_getElem?.1 hb
    rw [List.getElem?_take] at hi
    split at hi
    · rename_i hij
      rcases Nat.lt_trichotomy i k with hlt | rfl | hgt
      · have : b ∈ ns0.take k := by
          apply List.mem_iff_getElem?.2
          exact ⟨i, by rw [List.getElem?_take, if_pos hlt, hi]⟩
        simp [hall b this (hss.subset hbn)]
      · rw [hk] at hi; cases hi; simp
      · exact absurd hbn (j4 i b hgt hij hi)
    · cases hi
  · simp only [round]
    cases h : (exec l (f st (l.mem.node a).data)).2.2 with
    | true => simp [j3]
    | false => simp

theorem round_none {f : σ → T → Prog σ T} {t : It σ T} (h : t.cur = none) : round f t = t := by
  simp only [round, h]

theorem rounds_sweep {f : σ → T → Prog σ T} (hf : ∀ s v, Removes (f s v)) (hgo : ∀ (l : LL T) s v, (exec l (f s v)).2.2 = true)
    {t : It σ T} {ns0 : List Nat} {d : Nat → T} {vis : List Nat} {k : Nat} {x : X T} {ns : List Nat}
    (w : Sweep t ns0 d false vis k x ns) (n : Nat) :
    ∃ vis' k' x' ns', (k + n ≤ k' ∨ ((round f)^[n] t).cur = none) ∧ Sweep ((round f)^[n] t) ns0 d false vis' k' x' ns' := by
  induction n generalizing t vis k x ns with
  | zero => exact ⟨vis, k, x, ns, .inl (by omega), w⟩
  | succ n ih =>
    rw [Function.iterate_succ_apply]
    cases ha : t.cur with
    | none =>
      rw [round_none ha]
      have hfix : ∀ n, (round f)^[n] t = t := fun n => Function.iterate_fixed (round_none ha) n
      rw [hfix]
      exact ⟨vis, k, x, ns, .inr ha, w⟩
    | some a =>
      obtain ⟨st, vis1, k1, x1, ns1, h1, h2, h3⟩ := round_sweep hf w ha
      have hst : st = false := by
        cases st with
        | false => rfl
        | true => have := h3 rfl; rw [hgo] at this; cases this
      subst hst
      obtain ⟨vis', k', x', ns', h4, h5⟩ := ih h2
      exact ⟨vis', k', x', ns', h4.imp (fun h => by omega) id, h5⟩

/-- The same when the callback may say stop. -/
theorem rounds_sweep_stop {f : σ → T → Prog σ T} (hf : ∀ s v, Removes (f s v))
    {t : It σ T} {ns0 : List Nat} {d : Nat → T} {st : Bool} {vis : List Nat} {k : Nat} {x : X T} {ns : List Nat}
    (w : Sweep t ns0 d st vis k x ns) (n : Nat) :
    ∃ st' vis' k' x' ns', (k + n ≤ k' ∨ ((round f)^[n] t).cur = none) ∧ Sweep ((round f)^[n] t) ns0 d st' vis' k' x' ns' := by
  induction n generalizing t st vis k x ns with
  | zero => exact ⟨st, vis, k, x, ns, .inl (by omega), w⟩
  | succ n ih =>
    rw [Function.iterate_succ_apply]
    cases ha : t.cur with
    | none =>
      rw [round_none ha]
      have hfix : ∀ n, (round f)^[n] t = t := fun n => Function.iterate_fixed (round_none ha) n
      rw [hfix]
      exact ⟨st, vis, k, x, ns, .inr ha, w⟩
    | some a =>
      obtain ⟨st1, vis1, k1, x1, ns1, h1, h2, h3⟩ := round_sweep hf w ha
      obtain ⟨st', vis', k', x', ns', h4, h5⟩ := ih h2
      exact ⟨st', vis', k', x', ns', h4.imp (fun h => by omega) id, h5⟩

theorem start_sweep {l : LL T} {x : X T} {ns : List Nat} (r : RepX l x ns) (s : σ) :
    Sweep (⟨l, l.head, s, []⟩ : It σ T) ns (fun a => (l.mem.node a).data) false [] 0 x ns := by
  refine ⟨r, ⟨r.live.nodup, List.Sublist.refl _, fun _ => rfl, ?_⟩, rfl, by simp, by simp, ?_, by omega⟩
  · intro i a ha
    exact ⟨i + 1, by omega, (List.getElem?_eq_some_iff.1 ha).1, seg_next r.seg ha, fun k b h1 h2 => by omega⟩
  · simp [seg_head r.seg]

/-- A part of a list without repetitions that another part contains is a part of it. -/
theorem sublist_of_mem {l a b : List Nat} (hn : l.Nodup) (ha : a.Sublist l) (hb : b.Sublist l) (h : ∀ v ∈ a, v ∈ b) :
    a.Sublist b := by
  have key : ∀ {c : List Nat}, c.Sublist l → l.filter (fun v => decide (v ∈ c)) = c := by
    intro c hc
    clear ha hb h
    induction hc with
    | slnil => rfl
    | @cons c l e hc ih =>
      have he := (List.nodup_cons.1 hn)
      rw [List.filter_cons, if_neg (by simpa using fun h => he.1 (hc.subset h)), ih he.2]
    | @cons_cons c l e hc ih =>
      have he := (List.nodup_cons.1 hn)
      rw [List.filter_cons, if_pos (by simp)]
      congr 1
      conv_rhs => rw [← ih he.2]
      apply List.filter_congr
      intro v hv
      have : v ≠ e := fun h => he.1 (h ▸ hv)
      simp [this]
  rw [← key ha, ← key hb]
  exact List.monotone_filter_right l (fun v hv => by simpa using h v (by simpa using hv))

end Verif.ListMod
