import Verif.OrdMod.Model
import Verif.OrdMod.Spec
import Verif.Skl.Gone
/-! # The position of the iterator while the callback changes the map -/
set_option linter.unusedSectionVars false
namespace Verif.OrdMod
open Verif.Go Verif.Skl Verif.MapSpec Verif.Ord

section
variable {K V σ : Type} [GoOrdered K] [LawfulOrdered K] [DecidableEq K] [Inhabited K] [Inhabited V]

/-- Where the iterator of Range stands: on an entry, or on a removed node (with the key it leads to). -/
inductive GPos (K : Type) where
  | live (k : K)
  | gone (q : Option K)

def PosG (o : OrdMap K V) (nodes : List Nat) (it : Iter) : GPos K → Prop
  | .live k => PosOk o.skl nodes it (.at k)
  | .gone q => Gone o.skl nodes it q

/-- What an update does to the position of an iterator at `k`. -/
inductive Moves (hist : List (Op K V)) (k : K) : GPos K → Op K V → GPos K → Prop
  | set {p k' v} : Moves hist k p (.set k' v) p
  | del {k'} : k' ≠ k → Moves hist k (.live k) (.del k') (.live k)
  | at {q} : IsSucc hist k q → Moves hist k (.live k) (.del k) (.gone q)
  | gone {q k'} : q ≠ some k' → Moves hist k (.gone q) (.del k') (.gone q)

def Safe (k : K) : GPos K → Op K V → Prop
  | _, .clear _ => False
  | .live k', _ => k' = k
  | .gone q, .del k' => q ≠ some k'
  | .gone _, .set _ _ => True

theorem isSucc_congr {hist : List (Op K V)} {h' : List (Op K Unit)} (hd : ∀ k, (lookup h' k).isSome = (lookup hist k).isSome)
    {k : K} {q : Option K} (h : IsSucc h' k q) : IsSucc hist k q := by
  have hn : ∀ z, lookup h' z = none → lookup hist z = none := by
    intro z hz; have := hd z; rw [hz] at this; simpa using this.symm
  cases q with
  | none => exact fun z hz => hn z (h z hz)
  | some k' => exact ⟨h.1, by rw [← hd]; exact h.2.1, fun z hz hs => h.2.2 z hz (by rw [hd]; exact hs)⟩

theorem step_pos {hist : List (Op K V)} {o : OrdMap K V} {nodes : List Nat} (i : Inv hist o nodes) {it : Iter} {k : K} {p : GPos K}
    (hp : PosG o nodes it p) (op : Op K V) (hs : Safe k p op) :
    ∃ o' nodes' p', step o op = .ret o' ∧ Inv (hist ++ [op]) o' nodes' ∧ PosG o' nodes' it p' ∧ Moves hist k p op p' := by
  obtain ⟨h', ha, hd⟩ := i.idx
  cases op with
  | set k' v =>
    by_cases hn : (o.m k').isNone
    · obtain ⟨w', n', e, r', a', f, h1, h2⟩ := set_step i.rep ha k' ()
      have es : step o (.set k' v) = .ret { m := assign o.m k' v, skl := w' } := by
        simp only [Ord.step, Ord.set, if_pos hn, e, Outcome.bind_ret]
      refine ⟨_, n', p, es, ⟨r', ⟨_, a', ?_⟩, ?_⟩, ?_, .set⟩
      · intro z; rw [lookup_set, lookup_set]; split <;> simp [hd]
      · intro z; simp only; rw [assign_eq, lookup_set, i.m]
      · cases p with
        | live k'' =>
          obtain ⟨x, hx, hi, hk⟩ := hp
          exact ⟨x, h1 x hx, hi, by simp only; rw [f.key x (i.rep.lt_brk x hx), hk]⟩
        | gone q => exact Gone.set hp i.rep e f h1 h2
    · have es : step o (.set k' v) = .ret { o with m := assign o.m k' v } := by
        simp only [Ord.step, Ord.set, if_neg hn]
      refine ⟨_, nodes, p, es, ⟨i.rep, ⟨h', ha, ?_⟩, ?_⟩, ?_, .set⟩
      · intro z; rw [lookup_set]; split
        · rename_i e; subst e
          rw [hd, ← i.m]; cases h : o.m z <;> simp_all
        · exact hd z
      · intro z; simp only; rw [assign_eq, lookup_set, i.m]
      · cases p with
        | live k'' => exact hp
        | gone q => exact hp
  | del k' =>
    by_cases hn : (o.m k').isSome
    · have fin : ∀ (w' : World K Unit) (n' : List Nat) (b : Bool), Skl.del o.skl k' = .ret (w', b) → Rep w' n' →
          Abs (h' ++ [.del k']) w' n' →
          step o (.del k') = .ret { m := erase o.m k', skl := w' } ∧
          Inv (hist ++ [.del k']) { m := erase o.m k', skl := w' } n' := by
        intro w' n' b e r' a'
        refine ⟨by simp only [Ord.step, Ord.del, if_pos hn, e, Outcome.bind_ret], r', ⟨_, a', ?_⟩, ?_⟩
        · intro z; rw [lookup_del, lookup_del]; split <;> simp [hd]
        · intro z; simp only; rw [erase_eq, lookup_del, i.m]
      cases p with
      | live k'' =>
        have hk'' : k'' = k := hs
        subst hk''
        by_cases hkk : k' = k''
        · subst hkk
          obtain ⟨w', n', q, e, r', a', f, hq, g⟩ := del_at i.rep ha hp
          obtain ⟨es, iv⟩ := fin w' n' _ e r' a'
          exact ⟨_, n', .gone q, es, iv, g, .at (isSucc_congr hd hq)⟩
        · obtain ⟨w', n', e, r', a', f, h1, h2⟩ := del_step i.rep ha k'
          obtain ⟨es, iv⟩ := fin w' n' _ e r' a'
          obtain ⟨x, hx, hi, hk⟩ := hp
          exact ⟨_, n', .live k'', es, iv, ⟨x, h1 x hx (by rw [hk]; exact fun h => hkk h.symm), hi,
            by simp only; rw [f.key x (i.rep.lt_brk x hx), hk]⟩, .del hkk⟩
      | gone q =>
        obtain ⟨w', n', e, r', a', f, h1, h2⟩ := del_step i.rep ha k'
        obtain ⟨es, iv⟩ := fin w' n' _ e r' a'
        exact ⟨_, n', .gone q, es, iv, Gone.del hp i.rep e f h1 h2 hs, .gone hs⟩
    · have hk : lookup hist k' = none := by rw [← i.m]; cases h : o.m k' <;> simp_all
      have hl : ∀ z, lookup (hist ++ [.del k']) z = lookup hist z := by
        intro z; rw [lookup_del]; split
        · rename_i e; subst e; exact hk.symm
        · rfl
      have es : step o (.del k') = .ret o := by simp only [Ord.step, Ord.del, if_neg hn]
      have iv : Inv (hist ++ [.del k']) o nodes := ⟨i.rep, ⟨h', ha, fun z => by rw [hl, hd]⟩, fun z => by rw [hl, i.m]⟩
      cases p with
      | live k'' =>
        have hk'' : k'' = k := hs
        subst hk''
        refine ⟨_, nodes, .live k'', es, iv, hp, .del ?_⟩
        rintro rfl
        obtain ⟨x, hx, hi, hkx⟩ := hp
        have := (ha k' _).2 ⟨x, hx, hkx, rfl⟩
        have h2 := hd k'
        rw [this, hk] at h2; cases h2
      | gone q => exact ⟨_, nodes, .gone q, es, iv, hp, .gone hs⟩
  | clear s => exact absurd hs (by cases p <;> exact id)

/-- A callback at `k` that clears nothing and deletes other keys only if it keeps its own. -/
def Tame (k : K) (ops : List (Op K V)) : Prop :=
  (∀ s, .clear s ∉ ops) ∧ (.del k ∈ ops → ∀ k', .del k' ∈ ops → k' = k)

theorem lookup_keep {hist ops : List (Op K V)} {z : K} (h : (lookup hist z).isSome) (hd : .del z ∉ ops) (hc : ∀ s, .clear s ∉ ops) :
    (lookup (hist ++ ops) z).isSome := by
  induction ops using List.reverseRecOn with
  | nil => simpa using h
  | append_singleton ops op ih =>
    have ih := ih (fun h => hd (by simp [h])) (fun s h => hc s (by simp [h]))
    rw [← List.append_assoc]
    cases op with
    | set k' v => rw [lookup_set]; split <;> simp [ih]
    | del k' =>
      rw [lookup_del]; split
      · rename_i e; subst e; exact absurd (by simp) hd
      · exact ih
    | clear s => exact absurd (by simp) (hc s)

/-- What holds of the position in the middle of a callback at `k` that started with the history `h0`. -/
def PosInv (h0 ops : List (Op K V)) (k : K) : GPos K → Prop
  | .live k' => k' = k
  | .gone q => .del k ∈ ops ∧ match q with
    | none => ∀ z, GoOrdered.lt k z = true → lookup h0 z = none
    | some k' => GoOrdered.lt k k' = true ∧ ∀ z, GoOrdered.lt k z = true → (lookup h0 z).isSome → z = k' ∨ GoOrdered.lt k' z = true

theorem run_pos {h0 : List (Op K V)} {o : OrdMap K V} {nodes : List Nat} (i : Inv h0 o nodes) {it : Iter} {k : K}
    (hp : PosG o nodes it (.live k)) (ops : List (Op K V)) (ht : Tame k ops) :
    ∃ o' nodes' p, run o ops = .ret o' ∧ Inv (h0 ++ ops) o' nodes' ∧ PosG o' nodes' it p ∧ PosInv h0 ops k p := by
  induction ops using List.reverseRecOn with
  | nil => exact ⟨o, nodes, .live k, rfl, by simpa using i, hp, rfl⟩
  | append_singleton ops op ih =>
    obtain ⟨o', n', p, e, iv, hpo, pi⟩ := ih ⟨fun s h => ht.1 s (by simp [h]), fun h k' h' => ht.2 (by simp [h]) k' (by simp [h'])⟩
    have ne : ∀ q : Option K, PosInv h0 ops k (.gone q) → ∀ k', op = .del k' → q ≠ some k' := by
      rintro q pq k' rfl hq
      subst hq
      have : k' = k := ht.2 (by simp [pq.1]) k' (by simp)
      have hlt := pq.2.1
      rw [this, LawfulOrdered.irrefl] at hlt; cases hlt
    have hs : Safe k p op := by
      cases op with
      | clear s => exact absurd (by simp) (ht.1 s)
      | set k' v => cases p with
        | live k' => exact pi
        | gone q => exact trivial
      | del k' => cases p with
        | live k' => exact pi
        | gone q => exact ne q pi k' rfl
    obtain ⟨o'', n'', p', e', iv', hp', mv⟩ := step_pos iv hpo op hs
    refine ⟨o'', n'', p', by rw [Ord.run_append, e]; simp [Ord.run, e'], by rw [← List.append_assoc]; exact iv', hp', ?_⟩
    cases mv with
    | set => cases p with
      | live k' => exact pi
      | gone q => exact ⟨by simp [pi.1], pi.2⟩
    | del h => rfl
    | gone h => exact ⟨by simp [pi.1], pi.2⟩
    | «at» hq =>
      rename_i q
      refine ⟨by simp, ?_⟩
      have keep : ∀ z, GoOrdered.lt k z = true → (lookup h0 z).isSome → (lookup (h0 ++ ops) z).isSome := by
        intro z hz hsz
        refine lookup_keep hsz (fun h => ?_) (fun s h => ht.1 s (by simp [h]))
        have : z = k := ht.2 (by simp) z (by simp [h])
        rw [this, LawfulOrdered.irrefl] at hz; cases hz
      cases q with
      | none =>
        intro z hz
        cases hl : lookup h0 z with
        | none => rfl
        | some v =>
          have := keep z hz (by rw [hl]; rfl)
          rw [hq z hz] at this; cases this
      | some k' => exact ⟨hq.1, fun z hz hsz => hq.2.2 z hz (keep z hz hsz)⟩

/-- The next key of a loop whose last call was at `p` (with the history `h0`) and made the updates `ops`. -/
def NextOK (h0 ops : List (Op K V)) (p : Option K) : Option K → Prop
  | none => (∀ z, (∀ k, p = some k → GoOrdered.lt k z = true) → (lookup h0 z).isSome → .del z ∈ ops) ∧
      ((∀ k, p = some k → .del k ∉ ops) → ∀ z, (∀ k, p = some k → GoOrdered.lt k z = true) → lookup (h0 ++ ops) z = none)
  | some k' => (∀ k, p = some k → GoOrdered.lt k k' = true) ∧
      (∀ z, (∀ k, p = some k → GoOrdered.lt k z = true) → (lookup h0 z).isSome → .del z ∉ ops → z = k' ∨ GoOrdered.lt k' z = true) ∧
      ((∀ k, p = some k → .del k ∉ ops) → ∀ z, (∀ k, p = some k → GoOrdered.lt k z = true) → (lookup (h0 ++ ops) z).isSome →
        z = k' ∨ GoOrdered.lt k' z = true)

/-- The iterator is ready for the next round. -/
inductive Ready (h0 ops : List (Op K V)) (o : OrdMap K V) (nodes : List Nat) (it : Iter) : Option K → Prop
  | start : ops = [] → it.node = none → Ready h0 ops o nodes it none
  | at {k p} : Tame k ops → PosG o nodes it p → PosInv h0 ops k p → Ready h0 ops o nodes it (some k)

theorem next_ready {h0 ops : List (Op K V)} {o : OrdMap K V} {nodes : List Nat} {it : Iter} {p : Option K}
    (i : Inv (h0 ++ ops) o nodes) (hr : Ready h0 ops o nodes it p) :
    (∃ it', Skl.next o.skl it = .ret (it', none) ∧ NextOK h0 ops p none) ∨
    (∃ it' k v, Skl.next o.skl it = .ret (it', some (k, ())) ∧ lookup (h0 ++ ops) k = some v ∧ NextOK h0 ops p (some k) ∧
      PosOk o.skl nodes it' (.at k)) := by
  obtain ⟨h', ha, hd⟩ := i.idx
  have live : ∀ pp : Pos K, PosOk o.skl nodes it pp → pp ≠ .done → (∀ z, pp.before z ↔ ∀ k, p = some k → GoOrdered.lt k z = true) →
      (∀ s, .clear s ∉ ops) →
      (∃ it', Skl.next o.skl it = .ret (it', none) ∧ NextOK h0 ops p none) ∨
      (∃ it' k v, Skl.next o.skl it = .ret (it', some (k, ())) ∧ lookup (h0 ++ ops) k = some v ∧ NextOK h0 ops p (some k) ∧
        PosOk o.skl nodes it' (.at k)) := by
    intro pp hpp hnd hbef hcl
    obtain ⟨it', res, e, hn, hpo⟩ := next_spec i.rep ha hpp hnd
    cases res with
    | none =>
      refine .inl ⟨it', e, fun z hz hsz => ?_, fun _ z hz => ?_⟩
      · by_contra hdel
        have := lookup_keep hsz hdel hcl
        rw [← hd, hn z ((hbef z).2 hz)] at this; cases this
      · have := hd z
        rw [hn z ((hbef z).2 hz)] at this
        simpa using this.symm
    | some kv =>
      obtain ⟨k, u⟩ := kv
      obtain ⟨h1, h2, h3⟩ := hn
      have hs : (lookup (h0 ++ ops) k).isSome := by rw [← hd, h2]; rfl
      obtain ⟨v, hv⟩ := Option.isSome_iff_exists.1 hs
      refine .inr ⟨it', k, v, e, hv, ⟨(hbef k).1 h1, fun z hz hsz hdel => ?_, fun _ z hz hsz => ?_⟩, hpo⟩
      · exact h3 z ((hbef z).2 hz) (by rw [hd]; exact lookup_keep hsz hdel hcl)
      · exact h3 z ((hbef z).2 hz) (by rw [hd]; exact hsz)
  cases hr with
  | start ho hi =>
    subst ho
    exact live .start hi (by simp) (fun z => by simp [Pos.before]) (by simp)
  | @«at» k gp ht hg pi =>
    cases gp with
    | live k' =>
      have : k' = k := pi
      subst this
      exact live (.at k') hg (by simp) (fun z => by simp [Pos.before]) ht.1
    | gone q =>
      have ng := next_gone i.rep ha hg
      have ne : ∀ z, GoOrdered.lt k z = true → .del z ∉ ops := by
        intro z hz hdel
        rw [ht.2 pi.1 z hdel, LawfulOrdered.irrefl] at hz; cases hz
      cases q with
      | none =>
        obtain ⟨it', e⟩ := ng
        refine .inl ⟨it', e, fun z hz hsz => ?_, fun h => absurd pi.1 (h k rfl)⟩
        rw [pi.2 z (hz k rfl)] at hsz; cases hsz
      | some k' =>
        obtain ⟨it', u, e, hl, hpo⟩ := ng
        have hs : (lookup (h0 ++ ops) k').isSome := by rw [← hd, hl]; rfl
        obtain ⟨v, hv⟩ := Option.isSome_iff_exists.1 hs
        exact .inr ⟨it', k', v, e, hv, ⟨fun k'' hk => by cases hk; exact pi.2.1, fun z hz hsz _ => pi.2.2 z (hz k rfl) hsz,
          fun h => absurd pi.1 (h k rfl)⟩, hpo⟩

/-- The log of the rest of a loop. -/
inductive Tr : List (Op K V) → List (Op K V) → Option K → List (Visit K V) → Prop
  | done {h0 ops p} : NextOK h0 ops p none → Tr h0 ops p []
  | stop {h0 ops p k v ops'} : NextOK h0 ops p (some k) → lookup (h0 ++ ops) k = some v → Tr h0 ops p [⟨k, v, ops', true⟩]
  | cont {h0 ops p k v ops' l} : NextOK h0 ops p (some k) → lookup (h0 ++ ops) k = some v → Tame k ops' →
      Tr (h0 ++ ops) ops' (some k) l → Tr h0 ops p (⟨k, v, ops', false⟩ :: l)

/-- A callback that keeps a log. -/
def logged (f : Callback σ K V) : Callback (σ × List (Visit K V)) K V := fun s o k v =>
  let r := f s.1 o k v
  ((r.1, s.2 ++ [⟨k, v, r.2.1, r.2.2⟩]), r.2.1, r.2.2)

/-- The keys after the position. -/
def ahead : Option K → K → Bool
  | none, _ => true
  | some k, z => GoOrdered.lt k z

theorem loop_spec (f : Callback σ K V) (hf : ∀ s o k v, Tame k (f s o k v).2.1) : ∀ (fuel : Nat) (h0 ops : List (Op K V)) (o : OrdMap K V)
    (nodes : List Nat) (it : Iter) (p : Option K) (s : σ) (log : List (Visit K V)),
    Inv (h0 ++ ops) o nodes → Ready h0 ops o nodes it p →
    rangeLoop (logged f) fuel it o (s, log) ≠ .panic ∧
    (∀ s' l' o', rangeLoop (logged f) fuel it o (s, log) = .ret ((s', l'), o') →
      ∃ l nodes', l' = log ++ l ∧ Tr h0 ops p l ∧ Inv (h0 ++ ops ++ updates l) o' nodes' ∧ run o (updates l) = .ret o') ∧
    (∀ ks : List K, (∀ z, (lookup (h0 ++ ops) z).isSome → z ∈ ks) →
      (∀ s o k v z x, .set z x ∈ (f s o k v).2.1 → z ∈ ks) →
      (ks.filter (ahead p)).length < fuel →
      rangeLoop (logged f) fuel it o (s, log) ≠ .hang) := by
  intro fuel
  induction fuel with
  | zero =>
    intro h0 ops o nodes it p s log i hr
    exact ⟨by simp [rangeLoop], fun _ _ _ h => by simp [rangeLoop] at h, fun ks _ _ h => absurd h (by simp)⟩
  | succ fuel ih =>
    intro h0 ops o nodes it p s log i hr
    rcases next_ready i hr with ⟨it', e, hn⟩ | ⟨it', k, v, e, hv, hn, hpo⟩
    · have el : rangeLoop (logged f) (fuel + 1) it o (s, log) = .ret ((s, log), o) := by simp [rangeLoop, e]
      rw [el]
      refine ⟨by simp, fun s' l' o' h => ?_, by simp⟩
      simp only [Outcome.ret_inj, Prod.mk.injEq] at h
      obtain ⟨⟨rfl, rfl⟩, rfl⟩ := h
      exact ⟨[], nodes, by simp, .done hn, by simpa [updates] using i, rfl⟩
    · have hm : (o.m k).getD default = v := by rw [i.m, hv]; rfl
      obtain ⟨o1, n1, gp, er, i1, hg, pi⟩ := run_pos i (it := it') (k := k) hpo (f s o k v).2.1 (hf s o k v)
      have el : rangeLoop (logged f) (fuel + 1) it o (s, log) =
          if (f s o k v).2.2 then .ret (((f s o k v).1, log ++ [⟨k, v, (f s o k v).2.1, (f s o k v).2.2⟩]), o1)
          else rangeLoop (logged f) fuel it' o1 ((f s o k v).1, log ++ [⟨k, v, (f s o k v).2.1, (f s o k v).2.2⟩]) := by
        simp only [rangeLoop, e, Outcome.bind_ret, hm, logged, er]
      rw [el]
      cases hstop : (f s o k v).2.2 with
      | true =>
        rw [if_pos rfl]
        refine ⟨by simp, fun s' l' o' h => ?_, by simp⟩
        simp only [Outcome.ret_inj, Prod.mk.injEq] at h
        obtain ⟨⟨rfl, rfl⟩, rfl⟩ := h
        exact ⟨[⟨k, v, (f s o k v).2.1, true⟩], n1, rfl, .stop hn hv, by simpa [updates] using i1, by simpa [updates] using er⟩
      | false =>
        rw [if_neg (by simp)]
        obtain ⟨h1, h2, h3⟩ := ih (h0 ++ ops) (f s o k v).2.1 o1 n1 it' (some k) (f s o k v).1
          (log ++ [⟨k, v, (f s o k v).2.1, false⟩]) i1 (.at (hf s o k v) hg pi)
        refine ⟨h1, fun s' l' o' h => ?_, fun ks hk1 hk2 hlen => ?_⟩
        · obtain ⟨l, n', rfl, ht, iv, hrun⟩ := h2 s' l' o' h
          refine ⟨⟨k, v, (f s o k v).2.1, false⟩ :: l, n', by simp, .cont hn hv (hf s o k v) ht, ?_, ?_⟩
          · simpa [updates] using iv
          · have : updates (⟨k, v, (f s o k v).2.1, false⟩ :: l) = (f s o k v).2.1 ++ updates l := by simp [updates]
            rw [this, Ord.run_append, er]
            exact hrun
        · refine h3 ks ?_ hk2 ?_
          · intro z hz
            by_contra hc
            -- a key outside the list is never set
            have : ∀ ops' : List (Op K V), (∀ x, .set z x ∉ ops') → lookup (h0 ++ ops) z = none → lookup (h0 ++ ops ++ ops') z = none := by
              intro ops' hx hl
              induction ops' using List.reverseRecOn with
              | nil => simpa using hl
              | append_singleton ops' op ih' =>
                have ih' := ih' (fun x h => hx x (by simp [h]))
                rw [← List.append_assoc]
                cases op with
                | set k' x =>
                  rw [lookup_set]; split
                  · rename_i e; subst e; exact absurd (by simp) (hx x)
                  · exact ih'
                | del k' =>
                  rw [lookup_del]; split
                  · rfl
                  · exact ih'
                | clear s => rw [lookup_clear]
            have h0n : lookup (h0 ++ ops) z = none := by
              cases hl : lookup (h0 ++ ops) z with
              | none => rfl
              | some x => exact absurd (hk1 z (by rw [hl]; rfl)) hc
            rw [this _ (fun x hx => hc (hk2 _ _ _ _ _ _ hx)) h0n] at hz; cases hz
          · have hkk : k ∈ ks := hk1 k (by rw [hv]; rfl)
            refine lt_of_lt_of_le ?_ (Nat.le_of_lt_succ hlen)
            have hsub : (ks.filter (ahead (some k))).Sublist
                (ks.filter (ahead p)) := by
              refine List.monotone_filter_right ks ?_
              intro z hz
              cases p with
              | none => rfl
              | some k0 => exact LawfulOrdered.trans _ _ _ (hn.1 k0 rfl) hz
            refine Nat.lt_of_le_of_ne hsub.length_le (fun he => ?_)
            have := hsub.eq_of_length he
            have hin : k ∈ ks.filter (ahead p) := by
              refine List.mem_filter.2 ⟨hkk, ?_⟩
              cases p with
              | none => rfl
              | some k0 => exact hn.1 k0 rfl
            rw [← this, List.mem_filter, ahead, LawfulOrdered.irrefl] at hin
            cases hin.2

theorem Tr.after {h0 ops : List (Op K V)} {p : Option K} {l : List (Visit K V)} (h : Tr h0 ops p l) :
    ∀ e ∈ l, ∀ k, p = some k → GoOrdered.lt k e.key = true := by
  induction h with
  | done _ => simp
  | stop hn _ => intro e he k hk; simp only [List.mem_singleton] at he; subst he; exact hn.1 k hk
  | cont hn _ _ _ ih =>
    intro e he k hk
    rcases List.mem_cons.1 he with rfl | he
    · exact hn.1 k hk
    · exact LawfulOrdered.trans _ _ _ (hn.1 k hk) (ih e he _ rfl)

theorem Tr.sorted {h0 ops : List (Op K V)} {p : Option K} {l : List (Visit K V)} (h : Tr h0 ops p l) :
    l.Pairwise (fun a b => GoOrdered.lt a.key b.key = true) := by
  induction h with
  | done _ => exact .nil
  | stop _ _ => simp
  | cont _ _ _ ht ih => exact List.pairwise_cons.2 ⟨fun e he => ht.after e he _ rfl, ih⟩

theorem Tr.present {h0 ops : List (Op K V)} {p : Option K} {l : List (Visit K V)} (h : Tr h0 ops p l) :
    ∀ l₁ e l₂, l = l₁ ++ e :: l₂ → lookup (h0 ++ ops ++ updates l₁) e.key = some e.value := by
  induction h with
  | done _ => intro l₁ e l₂ h; simp at h
  | stop _ hv =>
    intro l₁ e l₂ h
    cases l₁ with
    | nil => simp only [List.nil_append, List.cons.injEq] at h; rw [← h.1]; simpa [updates] using hv
    | cons a l₁ => simp at h
  | cont _ hv _ _ ih =>
    intro l₁ e l₂ h
    cases l₁ with
    | nil => simp only [List.nil_append, List.cons.injEq] at h; rw [← h.1]; simpa [updates] using hv
    | cons a l₁ =>
      simp only [List.cons_append, List.cons.injEq] at h
      have := ih l₁ e l₂ h.2
      rw [← h.1]
      simpa [updates] using this

theorem Tr.stops {h0 ops : List (Op K V)} {p : Option K} {l : List (Visit K V)} (h : Tr h0 ops p l) :
    ∀ l₁ e l₂, l = l₁ ++ e :: l₂ → e.stop = true → l₂ = [] := by
  induction h with
  | done _ => intro l₁ e l₂ h; simp at h
  | stop _ _ =>
    intro l₁ e l₂ h _
    cases l₁ with
    | nil => simp only [List.nil_append, List.cons.injEq] at h; exact h.2.symm
    | cons a l₁ => simp at h
  | cont _ _ _ _ ih =>
    intro l₁ e l₂ h hs
    cases l₁ with
    | nil => simp only [List.nil_append, List.cons.injEq] at h; rw [← h.1] at hs; simp at hs
    | cons a l₁ =>
      simp only [List.cons_append, List.cons.injEq] at h
      exact ih l₁ e l₂ h.2 hs

theorem Tr.complete {h0 ops : List (Op K V)} {p : Option K} {l : List (Visit K V)} (h : Tr h0 ops p l) (hc : ∀ s, .clear s ∉ ops) :
    ∀ z, (∀ k, p = some k → GoOrdered.lt k z = true) → (lookup h0 z).isSome → .del z ∉ ops →
      (∀ e ∈ l, GoOrdered.lt e.key z = true → .del z ∉ e.ops) →
      (∃ e ∈ l, e.key = z) ∨ ∃ e ∈ l, e.stop = true ∧ GoOrdered.lt e.key z = true := by
  induction h with
  | done hn => intro z hz hs hd _; exact absurd (hn.1 z hz hs) hd
  | @stop h0 ops p k v ops' hn hv =>
    intro z hz hs hd _
    rcases hn.2.1 z hz hs hd with rfl | h
    · exact .inl ⟨_, List.mem_singleton.2 rfl, rfl⟩
    · exact .inr ⟨_, List.mem_singleton.2 rfl, rfl, h⟩
  | @cont h0 ops p k v ops' l hn hv ht _ ih =>
    intro z hz hs hd hall
    rcases hn.2.1 z hz hs hd with rfl | h
    · exact .inl ⟨_, List.mem_cons.2 (.inl rfl), rfl⟩
    · rcases ih ht.1 z (fun k' hk' => by cases hk'; exact h) (lookup_keep hs hd hc) (hall _ (List.mem_cons.2 (.inl rfl)) h)
        (fun e he => hall e (List.mem_cons.2 (.inr he))) with ⟨e, he, hk⟩ | ⟨e, he, hk⟩
      · exact .inl ⟨e, List.mem_cons.2 (.inr he), hk⟩
      · exact .inr ⟨e, List.mem_cons.2 (.inr he), hk⟩

/-- Entries that came during the last call. -/
theorem Tr.fresh {h0 ops : List (Op K V)} {p : Option K} {l : List (Visit K V)} (h : Tr h0 ops p l) (z : K)
    (hp : ∀ k, p = some k → .del k ∉ ops) (hz : ∀ k, p = some k → GoOrdered.lt k z = true) (hs : (lookup (h0 ++ ops) z).isSome)
    (hall : ∀ e ∈ l, GoOrdered.lt e.key z = true → .del z ∉ e.ops) :
    (∃ e ∈ l, e.key = z) ∨ ∃ e ∈ l, e.stop = true ∧ GoOrdered.lt e.key z = true := by
  cases h with
  | done hn => rw [hn.2 hp z hz] at hs; cases hs
  | stop hn hv =>
    rcases hn.2.2 hp z hz hs with rfl | h
    · exact .inl ⟨_, List.mem_singleton.2 rfl, rfl⟩
    · exact .inr ⟨_, List.mem_singleton.2 rfl, rfl, h⟩
  | cont hn hv ht tr =>
    rcases hn.2.2 hp z hz hs with rfl | h
    · exact .inl ⟨_, List.mem_cons.2 (.inl rfl), rfl⟩
    · rcases tr.complete ht.1 z (fun k' hk' => by cases hk'; exact h) hs (hall _ (List.mem_cons.2 (.inl rfl)) h)
        (fun e he => hall e (List.mem_cons.2 (.inr he))) with ⟨e, he, hk⟩ | ⟨e, he, hk⟩
      · exact .inl ⟨e, List.mem_cons.2 (.inr he), hk⟩
      · exact .inr ⟨e, List.mem_cons.2 (.inr he), hk⟩

theorem Tr.added {h0 ops : List (Op K V)} {p : Option K} {l : List (Visit K V)} (h : Tr h0 ops p l) :
    ∀ l₁ e l₂ z, l = l₁ ++ e :: l₂ → e.stop = false → .del e.key ∉ e.ops → GoOrdered.lt e.key z = true →
      (lookup (h0 ++ ops ++ updates (l₁ ++ [e])) z).isSome → (∀ e' ∈ l₂, GoOrdered.lt e'.key z = true → .del z ∉ e'.ops) →
      (∃ e' ∈ l₂, e'.key = z) ∨ ∃ e' ∈ l₂, e'.stop = true ∧ GoOrdered.lt e'.key z = true := by
  induction h with
  | done _ => intro l₁ e l₂ z h; simp at h
  | stop _ hv =>
    intro l₁ e l₂ z h hs
    cases l₁ with
    | nil => simp only [List.nil_append, List.cons.injEq] at h; rw [← h.1] at hs; cases hs
    | cons a l₁ => simp at h
  | cont _ hv ht tr ih =>
    intro l₁ e l₂ z h hs hd hz hl hall
    cases l₁ with
    | nil =>
      simp only [List.nil_append, List.cons.injEq] at h
      obtain ⟨rfl, rfl⟩ := h
      exact tr.fresh z (fun k hk => by cases hk; exact hd) (fun k hk => by cases hk; exact hz) (by simpa [updates] using hl) hall
    | cons a l₁ =>
      simp only [List.cons_append, List.cons.injEq] at h
      refine ih l₁ e l₂ z h.2 hs hd hz ?_ hall
      rw [← h.1] at hl
      simpa [updates] using hl

end
end Verif.OrdMod
