import Verif.SyncMap.Spec
/-!
# Invariant of the concurrent map
-/
set_option linter.unusedSectionVars false
namespace Verif.SyncMap
open Verif.Conc

variable {K V : Type} [DecidableEq K] [DecidableEq V] [Inhabited V]

/-- The call number a goroutine is working on. -/
def Pc.id? : Pc K V → Option Nat
  | .idle => none
  | .want id _ => some id
  | .body id _ _ => some id
  | .held id _ _ => some id
  | .out id _ _ => some id

/-- The lock mode a goroutine holds. -/
def Pc.holds : Pc K V → Option Mode
  | .body _ c _ => some (mode c)
  | .held _ c _ => some (mode c)
  | _ => none

/-- The call was invoked, has not returned. -/
def Pending (h : List (Event (Call K V) (Res K V))) (id : Nat) (c : Call K V) : Prop :=
  Event.inv id c ∈ h ∧ ∀ r, Event.ret id r ∉ h

/-- What holds of one goroutine, given the linearization `S`. -/
def PcOk (s : St K V) (S : List (Nat × Call K V × Res K V)) : Pc K V → Prop
  | .idle => True
  | .want id c => Pending s.hist id c ∧ ∀ e ∈ S, e.1 ≠ id
  | .body id c acc => Pending s.hist id c ∧ (∀ e ∈ S, e.1 ≠ id) ∧ acc.Nodup ∧ (∀ e ∈ acc, e ∈ s.m)
  | .held id c r => Pending s.hist id c ∧ (id, c, r) ∈ S
  | .out id c r => Pending s.hist id c ∧ (id, c, r) ∈ S

structure Inv (s : St K V) (S : List (Nat × Call K V × Res K V)) : Prop where
  keys : (s.m.map (·.1)).Nodup
  lin : LinTo mapObj s.hist S (find s.m)
  pcs : ∀ t, PcOk s S (s.pc t)
  ids : ∀ t t' id, (s.pc t).id? = some id → (s.pc t').id? = some id → t = t'
  fresh : ∀ id c, Event.inv id c ∈ s.hist → id < s.next
  freshRet : ∀ id r, Event.ret id r ∈ s.hist → id < s.next
  readers : ∀ t, t ∈ s.readers ↔ (s.pc t).holds = some .read
  rnodup : s.readers.Nodup
  writer : ∀ t, s.writer = some t ↔ (s.pc t).holds = some .write
  excl : s.writer ≠ none → s.readers = []

theorem find_eq_some {m : List (K × V)} (hn : (m.map (·.1)).Nodup) {k : K} {v : V} :
    find m k = some v ↔ (k, v) ∈ m := by
  unfold find
  constructor
  · intro h
    simp only [Option.map_eq_some_iff] at h
    obtain ⟨e, he, rfl⟩ := h
    have h1 := List.find?_some he
    simp at h1
    subst h1
    exact List.mem_of_find?_eq_some he
  · intro h
    cases hf : m.find? (fun e => decide (e.1 = k)) with
    | none =>
      simp only [List.find?_eq_none] at hf
      have := hf _ h
      simp at this
    | some e =>
      have h1 := List.find?_some hf
      simp at h1
      have h2 := List.mem_of_find?_eq_some hf
      have : e = (k, v) := List.inj_on_of_nodup_map hn h2 h h1
      simp [this]

theorem keysOf {m : List (K × V)} (hn : (m.map (·.1)).Nodup) : KeysOf (find m) (m.map (·.1)) := by
  refine ⟨hn, fun k => ?_⟩
  constructor
  · intro h
    obtain ⟨e, he, rfl⟩ := List.mem_map.1 h
    rw [(find_eq_some hn (v := e.2)).2 he]; rfl
  · intro h
    obtain ⟨v, hv⟩ := Option.isSome_iff_exists.1 h
    exact List.mem_map.2 ⟨_, (find_eq_some hn).1 hv, rfl⟩

theorem assign_nodup {m : List (K × V)} (hn : (m.map (·.1)).Nodup) (k : K) (v : V) :
    ((assign m k v).map (·.1)).Nodup := by
  unfold assign
  rw [List.map_cons, List.nodup_cons]
  refine ⟨?_, hn.sublist (List.Sublist.map _ List.filter_sublist)⟩
  intro h
  obtain ⟨e, he, h⟩ := List.mem_map.1 h
  simp at he; exact he.2 h

theorem erase_nodup {m : List (K × V)} (hn : (m.map (·.1)).Nodup) (k : K) :
    ((erase m k).map (·.1)).Nodup :=
  hn.sublist (List.Sublist.map _ List.filter_sublist)

theorem find_assign (m : List (K × V)) (k k' : K) (v : V) :
    find (assign m k v) k' = if k' = k then some v else find m k' := by
  unfold find assign
  by_cases h : k' = k
  · subst h; simp
  · have h' : ¬ k = k' := fun e => h e.symm
    rw [List.find?_cons_of_neg (by simp [h']), List.find?_filter, if_neg h]
    congr 1
    congr 1
    funext e
    by_cases he : e.1 = k'
    · simp [he, h]
    · simp [he]

theorem find_erase (m : List (K × V)) (k k' : K) :
    find (erase m k) k' = if k' = k then none else find m k' := by
  unfold find erase
  rw [List.find?_filter]
  by_cases h : k' = k
  · subst h
    simp
  · rw [if_neg h]
    congr 1
    congr 1
    funext e
    by_cases he : e.1 = k'
    · simp [he, h]
    · simp [he]

/-- The last access of a body is a step of the sequential map. -/
theorem finish_spec {m m' : List (K × V)} {c : Call K V} {acc : List (K × V)} {r : Res K V}
    (hn : (m.map (·.1)).Nodup) (ha : acc.Nodup) (hs : ∀ e ∈ acc, e ∈ m)
    (h : finish m c acc = some (r, m')) :
    mapStep (find m) c r (find m') ∧ (m'.map (·.1)).Nodup ∧ (mode c = .read → m' = m) := by
  have hperm : (∀ e ∈ m, e ∈ acc) → acc.Perm m := fun hall =>
    (List.perm_ext_iff_of_nodup ha (List.Nodup.of_map _ hn)).2 (fun e => ⟨hs e, hall e⟩)
  have hk : acc.Perm m → KeysOf (find m) (acc.map (·.1)) := by
    intro hp
    have := keysOf hn
    refine ⟨(hp.map _).nodup_iff.2 this.1, fun k => ?_⟩
    rw [← this.2 k, (hp.map (·.1)).mem_iff]
  cases c with
  | get k => simp [finish] at h; obtain ⟨rfl, rfl⟩ := h; exact ⟨⟨rfl, rfl⟩, hn, fun _ => rfl⟩
  | has k => simp [finish] at h; obtain ⟨rfl, rfl⟩ := h; exact ⟨⟨rfl, rfl⟩, hn, fun _ => rfl⟩
  | size =>
    simp [finish] at h; obtain ⟨rfl, rfl⟩ := h
    exact ⟨⟨⟨_, keysOf hn, by simp⟩, rfl⟩, hn, fun _ => rfl⟩
  | keys =>
    simp only [finish] at h
    split at h
    · rename_i hall
      simp at h; obtain ⟨rfl, rfl⟩ := h
      exact ⟨⟨⟨_, hk (hperm hall), rfl⟩, rfl⟩, hn, fun _ => rfl⟩
    · cases h
  | values =>
    simp only [finish] at h
    split at h
    · rename_i hall
      simp at h; obtain ⟨rfl, rfl⟩ := h
      refine ⟨⟨⟨_, _, hk (hperm hall), ?_, rfl⟩, rfl⟩, hn, fun _ => rfl⟩
      rw [List.map_map, List.map_map]
      refine List.map_congr_left (fun e he => ?_)
      exact ((find_eq_some hn).2 (hs e he)).symm
    · cases h
  | set k v =>
    simp [finish] at h; obtain ⟨rfl, rfl⟩ := h
    exact ⟨⟨rfl, funext fun k' => find_assign m k k' v⟩, assign_nodup hn k v, by simp [mode]⟩
  | delete k =>
    simp [finish] at h; obtain ⟨rfl, rfl⟩ := h
    exact ⟨⟨rfl, funext fun k' => find_erase m k k'⟩, erase_nodup hn k, by simp [mode]⟩
  | clear =>
    simp [finish] at h; obtain ⟨rfl, rfl⟩ := h
    exact ⟨⟨rfl, rfl⟩, by simp, by simp [mode]⟩

@[simp] theorem setPc_same (f : Nat → Pc K V) (t : Nat) (p : Pc K V) : setPc f t p t = p := by simp [setPc]
theorem setPc_ne (f : Nat → Pc K V) {t t' : Nat} (p : Pc K V) (h : t' ≠ t) : setPc f t p t' = f t' := by
  simp [setPc, h]

/-- Changing one goroutine's pc without changing its call number keeps the numbers distinct. -/
theorem ids_setPc {s : St K V} {t : Nat} {p : Pc K V}
    (hi : ∀ t t' id, (s.pc t).id? = some id → (s.pc t').id? = some id → t = t')
    (hp : ∀ id, p.id? = some id → (s.pc t).id? = some id) :
    ∀ t1 t2 id, (setPc s.pc t p t1).id? = some id → (setPc s.pc t p t2).id? = some id → t1 = t2 := by
  intro t1 t2 id h1 h2
  refine hi t1 t2 id ?_ ?_
  · by_cases h : t1 = t
    · subst h; simp at h1; exact hp id h1
    · rwa [setPc_ne _ _ h] at h1
  · by_cases h : t2 = t
    · subst h; simp at h2; exact hp id h2
    · rwa [setPc_ne _ _ h] at h2

theorem inv_init : Inv (init : St K V) [] where
  keys := by simp [init]
  lin := LinTo.nil mapObj
  pcs := fun t => by simp [init, PcOk]
  ids := fun t t' id h => by simp [init, Pc.id?] at h
  fresh := by simp [init]
  freshRet := by simp [init]
  readers := fun t => by simp [init, Pc.holds]
  rnodup := by simp [init]
  writer := fun t => by simp [init, Pc.holds]
  excl := by simp [init]

theorem PcOk.mono {s s' : St K V} {S : List (Nat × Call K V × Res K V)} {p : Pc K V}
    (h : PcOk s S p) (hh : s'.hist = s.hist) (hm : s'.m = s.m) : PcOk s' S p := by
  cases p <;> simp only [PcOk, Pending, hh, hm] at * <;> exact h

theorem inv_step {s s' : St K V} {S : List (Nat × Call K V × Res K V)} (i : Inv s S) (st : Step s s') :
    ∃ S', Inv s' S' := by
  cases st with
  | @invoke t c ht =>
    have hS : ∀ e ∈ S, e.1 ≠ s.next := fun e he => by
      have := i.fresh _ _ (i.lin.invoked e he); omega
    refine ⟨S, i.keys, i.lin.inv _ _ hS, ?_, ?_, ?_, ?_, ?_, i.rnodup, ?_, i.excl⟩
    · intro t'
      by_cases h : t' = t
      · subst h
        simp only [setPc_same, PcOk, Pending]
        refine ⟨⟨by simp, ?_⟩, hS⟩
        intro r hr
        simp at hr
        have := i.freshRet _ _ hr; omega
      · simp only [setPc_ne _ _ h]
        have := i.pcs t'
        cases hp : s.pc t' <;> simp only [hp, PcOk, Pending, List.mem_append, List.mem_singleton] at this ⊢
        all_goals try trivial
        · exact ⟨⟨.inl this.1.1, fun r hr => by
            rcases hr with hr | hr
            · exact this.1.2 r hr
            · cases hr⟩, this.2⟩
        · exact ⟨⟨.inl this.1.1, fun r hr => by
            rcases hr with hr | hr
            · exact this.1.2 r hr
            · cases hr⟩, this.2⟩
        · exact ⟨⟨.inl this.1.1, fun r hr => by
            rcases hr with hr | hr
            · exact this.1.2 r hr
            · cases hr⟩, this.2⟩
        · exact ⟨⟨.inl this.1.1, fun r hr => by
            rcases hr with hr | hr
            · exact this.1.2 r hr
            · cases hr⟩, this.2⟩
    · have key : ∀ t', t' ≠ t → (s.pc t').id? ≠ some s.next := by
        intro t' h e
        have := i.pcs t'
        cases hp : s.pc t' <;> simp only [hp, PcOk, Pending, Pc.id?] at this e <;> try cases e
        all_goals (have := i.fresh _ _ this.1.1; omega)
      intro t1 t2 id h1 h2
      by_cases e1 : t1 = t
      · by_cases e2 : t2 = t
        · rw [e1, e2]
        · subst e1
          simp only [setPc_same, Pc.id?] at h1
          simp only [setPc_ne _ _ e2] at h2
          cases h1
          exact absurd h2 (key t2 e2)
      · by_cases e2 : t2 = t
        · subst e2
          simp only [setPc_same, Pc.id?] at h2
          simp only [setPc_ne _ _ e1] at h1
          cases h2
          exact absurd h1 (key t1 e1)
        · simp only [setPc_ne _ _ e1] at h1
          simp only [setPc_ne _ _ e2] at h2
          exact i.ids t1 t2 id h1 h2
    · intro id c' h
      simp at h
      rcases h with h | ⟨rfl, _⟩
      · have := i.fresh _ _ h; simp; omega
      · simp
    · intro id r h
      simp at h
      have := i.freshRet _ _ h; simp; omega
    · intro t'
      by_cases h : t' = t
      · subst h; simp only [setPc_same, i.readers, ht, Pc.holds]
      · simp only [setPc_ne _ _ h, i.readers]
    · intro t'
      by_cases h : t' = t
      · subst h; simp only [setPc_same, i.writer, ht, Pc.holds]
      · simp only [setPc_ne _ _ h, i.writer]
  | @rlock t id c ht hm hw =>
    have hpt := i.pcs t
    rw [ht] at hpt
    refine ⟨S, i.keys, i.lin, ?_, ids_setPc i.ids (by simp [ht, Pc.id?]), i.fresh, i.freshRet, ?_, ?_, ?_, ?_⟩
    · intro t'
      by_cases h : t' = t
      · subst h; simp only [setPc_same, PcOk]; exact ⟨hpt.1, hpt.2, by simp, by simp⟩
      · simp only [setPc_ne _ _ h]; exact (i.pcs t').mono rfl rfl
    · intro t'
      by_cases h : t' = t
      · subst h; simp [Pc.holds, hm]
      · simp [setPc_ne _ _ h, h, i.readers]
    · simp only [List.nodup_cons]
      refine ⟨?_, i.rnodup⟩
      rw [i.readers, ht]; simp [Pc.holds]
    · intro t'
      by_cases h : t' = t
      · subst h; simp [Pc.holds, hm, hw]
      · simp only [setPc_ne _ _ h, i.writer]
    · simp [hw]
  | @lock t id c ht hm hw hr =>
    have hpt := i.pcs t
    rw [ht] at hpt
    refine ⟨S, i.keys, i.lin, ?_, ids_setPc i.ids (by simp [ht, Pc.id?]), i.fresh, i.freshRet, ?_, i.rnodup, ?_, ?_⟩
    · intro t'
      by_cases h : t' = t
      · subst h; simp only [setPc_same, PcOk]; exact ⟨hpt.1, hpt.2, by simp, by simp⟩
      · simp only [setPc_ne _ _ h]; exact (i.pcs t').mono rfl rfl
    · intro t'
      by_cases h : t' = t
      · subst h; simp [Pc.holds, hm, hr]
      · simp only [setPc_ne _ _ h, i.readers]
    · intro t'
      by_cases h : t' = t
      · subst h; simp [Pc.holds, hm]
      · have := i.writer t'
        rw [hw] at this
        simp only [setPc_ne _ _ h]
        rw [← this]
        simpa using fun e : t = t' => h e.symm
    · simp [hr]
  | @iter t id c acc e ht hc he hn =>
    have hpt := i.pcs t
    rw [ht] at hpt
    refine ⟨S, i.keys, i.lin, ?_, ids_setPc i.ids (by simp [ht, Pc.id?]), i.fresh, i.freshRet, ?_, i.rnodup, ?_, i.excl⟩
    · intro t'
      by_cases h : t' = t
      · subst h; simp only [setPc_same, PcOk]
        refine ⟨hpt.1, hpt.2.1, ?_, ?_⟩
        · rw [List.nodup_append]
          refine ⟨hpt.2.2.1, by simp, ?_⟩
          intro a ha b hb e'
          simp at hb; subst hb; subst e'; exact hn ha
        · intro a ha
          rcases List.mem_append.1 ha with ha | ha
          · exact hpt.2.2.2 a ha
          · simp at ha; subst ha; exact he
      · simp only [setPc_ne _ _ h]; exact (i.pcs t').mono rfl rfl
    · intro t'
      by_cases h : t' = t
      · subst h; simp only [setPc_same, i.readers, ht, Pc.holds]
      · simp only [setPc_ne _ _ h, i.readers]
    · intro t'
      by_cases h : t' = t
      · subst h; simp only [setPc_same, i.writer, ht, Pc.holds]
      · simp only [setPc_ne _ _ h, i.writer]
  | @access t id c acc r m' ht hf =>
    have hpt := i.pcs t
    rw [ht] at hpt
    obtain ⟨hstep, hn', hread⟩ := finish_spec i.keys hpt.2.2.1 hpt.2.2.2 hf
    -- no other goroutine is in a body unless the map is unchanged
    have hother : ∀ t' id' c' acc', t' ≠ t → s.pc t' = .body id' c' acc' → m' = s.m := by
      intro t' id' c' acc' hne hp
      cases hm : mode c with
      | read => exact hread hm
      | write =>
        have hwt : s.writer = some t := (i.writer t).2 (by rw [ht, Pc.holds, hm])
        cases hm' : mode c' with
        | read =>
          have : t' ∈ s.readers := (i.readers t').2 (by rw [hp, Pc.holds, hm'])
          rw [i.excl (by rw [hwt]; simp)] at this
          simp at this
        | write =>
          have : s.writer = some t' := (i.writer t').2 (by rw [hp, Pc.holds, hm'])
          rw [hwt] at this; cases this; exact absurd rfl hne
    refine ⟨S ++ [(id, c, r)], hn', i.lin.lin hpt.1.1 hpt.1.2 hpt.2.1 hstep, ?_,
      ids_setPc i.ids (by simp [ht, Pc.id?]), i.fresh, i.freshRet, ?_, i.rnodup, ?_, i.excl⟩
    · intro t'
      by_cases h : t' = t
      · subst h; simp only [setPc_same, PcOk]; exact ⟨hpt.1, by simp⟩
      · simp only [setPc_ne _ _ h]
        have hid : (s.pc t').id? ≠ some id := fun e => h (i.ids t' t id e (by rw [ht]; rfl))
        have hp' := i.pcs t'
        cases hp : s.pc t' with
        | idle => trivial
        | want id' c' =>
          rw [hp] at hp'
          refine ⟨hp'.1, fun e he => ?_⟩
          rcases List.mem_append.1 he with he | he
          · exact hp'.2 e he
          · simp at he; subst he; intro e; apply hid; rw [hp, Pc.id?, ← e]
        | body id' c' acc' =>
          rw [hp] at hp'
          refine ⟨hp'.1, fun e he => ?_, hp'.2.2.1, ?_⟩
          · rcases List.mem_append.1 he with he | he
            · exact hp'.2.1 e he
            · simp at he; subst he; intro e; apply hid; rw [hp, Pc.id?, ← e]
          · simp only; rw [hother t' id' c' acc' h hp]; exact hp'.2.2.2
        | held id' c' r' => rw [hp] at hp'; exact ⟨hp'.1, by simp [hp'.2]⟩
        | out id' c' r' => rw [hp] at hp'; exact ⟨hp'.1, by simp [hp'.2]⟩
    · intro t'
      by_cases h : t' = t
      · subst h; simp only [setPc_same, i.readers, ht, Pc.holds]
      · simp only [setPc_ne _ _ h, i.readers]
    · intro t'
      by_cases h : t' = t
      · subst h; simp only [setPc_same, i.writer, ht, Pc.holds]
      · simp only [setPc_ne _ _ h, i.writer]
  | @runlock t id c r ht hm =>
    have hpt := i.pcs t
    rw [ht] at hpt
    refine ⟨S, i.keys, i.lin, ?_, ids_setPc i.ids (by simp [ht, Pc.id?]), i.fresh, i.freshRet, ?_,
      i.rnodup.erase t, ?_, ?_⟩
    · intro t'
      by_cases h : t' = t
      · subst h; simp only [setPc_same, PcOk]; exact hpt
      · simp only [setPc_ne _ _ h]; exact (i.pcs t').mono rfl rfl
    · intro t'
      rw [i.rnodup.mem_erase_iff, i.readers]
      by_cases h : t' = t
      · subst h; simp [Pc.holds]
      · simp [setPc_ne _ _ h, h]
    · intro t'
      by_cases h : t' = t
      · subst h
        simp only [setPc_same, i.writer, ht, Pc.holds, hm]
        simp
      · simp only [setPc_ne _ _ h, i.writer]
    · intro hw
      have := i.excl hw
      simp [this]
  | @unlock t id c r ht hm =>
    have hpt := i.pcs t
    rw [ht] at hpt
    have hwt : s.writer = some t := (i.writer t).2 (by rw [ht, Pc.holds, hm])
    refine ⟨S, i.keys, i.lin, ?_, ids_setPc i.ids (by simp [ht, Pc.id?]), i.fresh, i.freshRet, ?_,
      i.rnodup, ?_, by simp⟩
    · intro t'
      by_cases h : t' = t
      · subst h; simp only [setPc_same, PcOk]; exact hpt
      · simp only [setPc_ne _ _ h]; exact (i.pcs t').mono rfl rfl
    · intro t'
      by_cases h : t' = t
      · subst h
        simp only [setPc_same, i.readers, ht, Pc.holds, hm]
        simp
      · simp only [setPc_ne _ _ h, i.readers]
    · intro t'
      by_cases h : t' = t
      · subst h; simp [Pc.holds]
      · simp only [setPc_ne _ _ h]
        rw [← i.writer t', hwt]
        simpa using fun e : t = t' => h e.symm
  | @ret t id c r ht =>
    have hpt := i.pcs t
    rw [ht] at hpt
    refine ⟨S, i.keys, i.lin.ret hpt.2, ?_, ids_setPc i.ids (by simp [Pc.id?]), ?_, ?_, ?_, i.rnodup, ?_, i.excl⟩
    · intro t'
      by_cases h : t' = t
      · subst h; simp only [setPc_same, PcOk]
      · simp only [setPc_ne _ _ h]
        have hid : (s.pc t').id? ≠ some id := fun e => h (i.ids t' t id e (by rw [ht]; rfl))
        have hpend : ∀ id' c', (s.pc t').id? = some id' → Pending s.hist id' c' →
            Pending (s.hist ++ [.ret id r]) id' c' := by
          intro id' c' e hp
          refine ⟨by simp [hp.1], fun r' hr' => ?_⟩
          simp at hr'
          rcases hr' with hr' | ⟨rfl, _⟩
          · exact hp.2 r' hr'
          · exact hid e
        have hp' := i.pcs t'
        cases hp : s.pc t' with
        | idle => trivial
        | want id' c' => rw [hp] at hp'; exact ⟨hpend _ _ (by rw [hp]; rfl) hp'.1, hp'.2⟩
        | body id' c' acc' => rw [hp] at hp'; exact ⟨hpend _ _ (by rw [hp]; rfl) hp'.1, hp'.2⟩
        | held id' c' r' => rw [hp] at hp'; exact ⟨hpend _ _ (by rw [hp]; rfl) hp'.1, hp'.2⟩
        | out id' c' r' => rw [hp] at hp'; exact ⟨hpend _ _ (by rw [hp]; rfl) hp'.1, hp'.2⟩
    · intro id' c' h
      simp at h; exact i.fresh _ _ h
    · intro id' r' h
      simp at h
      rcases h with h | ⟨rfl, _⟩
      · exact i.freshRet _ _ h
      · exact i.fresh _ _ hpt.1.1
    · intro t'
      by_cases h : t' = t
      · subst h; simp only [setPc_same, i.readers, ht, Pc.holds]
      · simp only [setPc_ne _ _ h, i.readers]
    · intro t'
      by_cases h : t' = t
      · subst h; simp only [setPc_same, i.writer, ht, Pc.holds]
      · simp only [setPc_ne _ _ h, i.writer]

theorem Reach.inv {s : St K V} (h : Reach s) : ∃ S, Inv s S := by
  induction h with
  | init => exact ⟨[], inv_init⟩
  | step _ st ih =>
    obtain ⟨S, i⟩ := ih
    exact inv_step i st

end Verif.SyncMap
