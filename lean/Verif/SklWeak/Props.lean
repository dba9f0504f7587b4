import Verif.SklWeak.Lemmas
import Verif.Skl.GoneProps
/-!
# C163: iterators while the map changes
-/
set_option linter.unusedSectionVars false
namespace Verif.SklWeak
open Verif.Go Verif.MapSpec Verif.Skl

section
variable {K V : Type} [GoOrdered K] [LawfulOrdered K] [DecidableEq K] [Inhabited K] [Inhabited V]
variable {s : BitVec 64} {hist ops : List (Op K V)} {p : Pos K} {w : World K V} {it : Iter} {out : List (Given K V)}

/-- **C163, returns.** Whatever has been set and deleted, also the key the iterator stands on, `Next` returns, and so do `Set` and `Del`. -/
theorem C163_returns (h : Iterated s hist p ops w it out) :
    (∃ it' res, Skl.next w it = .ret (it', res)) ∧ ∀ o : Op K V, ∃ w', Skl.step w o = .ret w' := by
  obtain ⟨nodes, dead, i⟩ := h.inv
  obtain ⟨it', res, e, -⟩ := i.next
  refine ⟨⟨it', res, e⟩, fun o => ?_⟩
  cases o with
  | set k v => obtain ⟨w', _, e, _⟩ := set_step i.rep i.abs k v; exact ⟨w', e⟩
  | del k => obtain ⟨w', _, e, _⟩ := del_step i.rep i.abs k; exact ⟨w', by simp only [Skl.step, e, Outcome.map_ret]⟩
  | clear s' => exact ⟨_, rfl⟩

theorem before_last (hp : out.Pairwise fun a b => GoOrdered.lt a.key b.key = true) (h0 : ∀ g ∈ out, p.before g.key) {k : K}
    (hk : (posOf p out).before k) : (∀ g ∈ out, GoOrdered.lt g.key k = true) ∧ p.before k := by
  rcases List.eq_nil_or_concat out with rfl | ⟨init, l, rfl⟩
  · exact ⟨by simp, hk⟩
  · rw [List.concat_eq_append] at *
    have hq : posOf p (init ++ [l]) = .at l.key := by simp [posOf]
    rw [hq] at hk
    replace hk : GoOrdered.lt l.key k = true := hk
    rw [List.pairwise_append] at hp
    refine ⟨fun g hg => ?_, ?_⟩
    · rcases List.mem_append.1 hg with hg | hg
      · exact LawfulOrdered.trans _ _ _ (hp.2.2 g hg l (by simp)) hk
      · simp at hg; subst hg; exact hk
    · have := h0 l (by simp)
      cases p with
      | start => trivial
      | done => exact this
      | «at» k0 => exact LawfulOrdered.trans _ _ _ this hk

/-- **C163, upwards.** The keys come in ascending order, each at most once, and after the position where the iteration began. -/
theorem C163_up (h : Iterated s hist p ops w it out) :
    out.Pairwise (fun a b => GoOrdered.lt a.key b.key = true) ∧ ∀ g ∈ out, p.before g.key := by
  induction h with
  | start _ _ => exact ⟨List.Pairwise.nil, by simp⟩
  | op _ _ _ ih => exact ih
  | @next ops w it out it' k v h e ih =>
    obtain ⟨nodes, dead, i⟩ := h.inv
    obtain ⟨it2, res, e2, hf, -⟩ := i.next
    rw [e] at e2
    simp only [Outcome.ret_inj, Prod.mk.injEq] at e2
    obtain ⟨rfl, rfl⟩ := e2
    obtain ⟨h1, h2⟩ := before_last ih.1 ih.2 hf.1
    refine ⟨List.pairwise_append.2 ⟨ih.1, by simp, fun a ha b hb => ?_⟩, fun g hg => ?_⟩
    · simp at hb; subst hb; exact h1 a ha
    · rcases List.mem_append.1 hg with hg | hg
      · exact ih.2 g hg
      · simp at hg; subst hg; exact h2

/-- **C163, what is given.** Every entry given was in the map at some time since the iteration began, and if its key has not been deleted
since then, it was in the map at the time of the call. -/
theorem C163_given (h : Iterated s hist p ops w it out) : ∀ g ∈ out, g.pre <+: ops ∧ Was hist g.pre g.key g.val ∧
    (lookup (hist ++ g.pre) g.key = some g.val ∨ .del g.key ∈ g.pre) := by
  induction h with
  | start _ _ => simp
  | op _ _ _ ih =>
    intro g hg
    obtain ⟨h1, h2⟩ := ih g hg
    exact ⟨h1.trans (List.prefix_append _ _), h2⟩
  | @next ops w it out it' k v h e ih =>
    obtain ⟨nodes, dead, i⟩ := h.inv
    obtain ⟨it2, res, e2, hf, -⟩ := i.next
    rw [e] at e2
    simp only [Outcome.ret_inj, Prod.mk.injEq] at e2
    obtain ⟨rfl, rfl⟩ := e2
    intro g hg
    rcases List.mem_append.1 hg with hg | hg
    · exact ih g hg
    · simp at hg; subst hg; exact ⟨List.prefix_refl _, hf.2.1, hf.2.2.1⟩

theorem all_so_far (h : Iterated s hist p ops w it out) : ∀ z, Always hist ops z → p.before z →
    (∃ g ∈ out, g.key = z) ∨ (posOf p out).before z := by
  induction h with
  | start _ _ => intro z _ hb; exact .inr hb
  | op _ _ _ ih => intro z ha hb; exact ih z (ha.mono (List.prefix_append _ _)) hb
  | @next ops w it out it' k v h e ih =>
    obtain ⟨nodes, dead, i⟩ := h.inv
    obtain ⟨it2, res, e2, hf, -⟩ := i.next
    rw [e] at e2
    simp only [Outcome.ret_inj, Prod.mk.injEq] at e2
    obtain ⟨rfl, rfl⟩ := e2
    intro z ha hb
    rcases ih z ha hb with ⟨g, hg, hk⟩ | hb'
    · exact .inl ⟨g, List.mem_append_left _ hg, hk⟩
    · rcases hf.2.2.2 z ha hb' with rfl | hlt
      · exact .inl ⟨_, List.mem_append_right _ (List.mem_singleton.2 rfl), rfl⟩
      · right
        have hq : posOf p (out ++ [⟨ops, k, v⟩]) = .at k := by simp [posOf]
        rw [hq]; exact hlt

/-- **C163, nothing is missed.** When `Next` says that it is at the end, every key that has been in the map all the time, after the position
where the iteration began, has been given. -/
theorem C163_all (h : Iterated s hist p ops w it out) {it' : Iter} (e : Skl.next w it = .ret (it', none)) {z : K} (ha : Always hist ops z)
    (hb : p.before z) : ∃ g ∈ out, g.key = z := by
  rcases all_so_far h z ha hb with h' | h'
  · exact h'
  · obtain ⟨nodes, dead, i⟩ := h.inv
    obtain ⟨it2, res, e2, hf, -⟩ := i.next
    rw [e] at e2
    simp only [Outcome.ret_inj, Prod.mk.injEq] at e2
    obtain ⟨rfl, rfl⟩ := e2
    exact absurd h' (hf z ha)

/-- When `Next` has come to the key `k`, the same holds for the keys up to `k`. -/
theorem C163_all_upto (h : Iterated s hist p ops w it out) {k : K} (hl : out.getLast?.map (·.key) = some k) {z : K} (ha : Always hist ops z)
    (hb : p.before z) (hz : GoOrdered.lt k z = false) : ∃ g ∈ out, g.key = z := by
  rcases all_so_far h z ha hb with h' | h'
  · exact h'
  · have : posOf p out = .at k := by
      unfold posOf
      cases hq : out.getLast? with
      | none => rw [hq] at hl; cases hl
      | some g => rw [hq] at hl; simp at hl; simp [hl]
    rw [this] at h'
    exact absurd h' (by simp [Pos.before, hz])

theorem lookup_present {hist : List (Op K V)} {k : K} : ∀ ops : List (Op K V), (lookup (hist ++ ops) k).isSome → (lookup hist k).isSome ∨ k ∈ setKeys ops := by
  have mono : ∀ (a b : List (Op K V)), k ∈ setKeys a ∨ k ∈ setKeys b → k ∈ setKeys (a ++ b) := by
    intro a b
    induction a with
    | nil => simp [setKeys]
    | cons o a ih =>
      cases o with
      | set k' v => simp only [setKeys, List.cons_append, List.mem_cons]; tauto
      | del k' => exact ih
      | clear s => exact ih
  intro ops
  induction ops using List.reverseRecOn with
  | nil => intro h; simpa using Or.inl h
  | append_singleton ops o ih =>
    intro h
    rw [← List.append_assoc] at h
    cases o with
    | set k' v =>
      rw [lookup_set] at h
      split at h
      · rename_i e; exact .inr (mono _ _ (.inr (by simp [setKeys, e])))
      · exact (ih h).imp id fun h => mono _ _ (.inl h)
    | del k' =>
      rw [lookup_del] at h
      split at h
      · cases h
      · exact (ih h).imp id fun h => mono _ _ (.inl h)
    | clear s => rw [lookup_clear] at h; cases h

theorem setKeys_prefix {a b : List (Op K V)} (h : a <+: b) {k : K} (hk : k ∈ setKeys a) : k ∈ setKeys b := by
  obtain ⟨c, rfl⟩ := h
  induction a with
  | nil => cases hk
  | cons o a ih =>
    cases o with
    | set k' v =>
      simp only [setKeys, List.cons_append, List.mem_cons] at hk ⊢
      exact hk.imp id ih
    | del k' => exact ih hk
    | clear s => exact ih hk

/-- **C163, ends.** An iteration gives no more entries than there were in the map plus `Set` calls since: it comes to the end when no new keys
are set. -/
theorem C163_ends (h : Iterated s hist p ops w it out) {ks : List K} (hk : PresentKeys hist ks) : out.length ≤ ks.length + (setKeys ops).length := by
  have hnd : (out.map (·.key)).Nodup := by
    refine List.Nodup.of_map id ?_
    rw [List.map_id]
    exact List.pairwise_map.2 ((C163_up h).1.imp fun {a b} hlt he => by rw [he, LawfulOrdered.irrefl] at hlt; cases hlt)
  have hsub : ∀ k ∈ out.map (·.key), k ∈ ks ++ setKeys ops := by
    intro k hk'
    obtain ⟨g, hg, rfl⟩ := List.mem_map.1 hk'
    obtain ⟨h1, ⟨pre, h2, h3⟩, -⟩ := C163_given h g hg
    rcases lookup_present pre (by rw [h3]; rfl) with h4 | h4
    · exact List.mem_append_left _ ((hk.2 _).2 h4)
    · exact List.mem_append_right _ (setKeys_prefix (h2.trans h1) h4)
  have := (List.subperm_of_subset hnd hsub).length_le
  simpa using this

/-- **C163.** An iteration from any position of any map, with any `Set` and `Del` calls in between: the keys ascend; what is given was in the map
meanwhile; and at the end no key has been missed that was there all the time. -/
theorem C163_weakly_consistent (h : Iterated s hist p ops w it out) {it' : Iter} (e : Skl.next w it = .ret (it', none)) :
    (out.Pairwise fun a b => GoOrdered.lt a.key b.key = true) ∧ (∀ g ∈ out, p.before g.key ∧ Was hist ops g.key g.val) ∧
      ∀ z, Always hist ops z → p.before z → ∃ g ∈ out, g.key = z :=
  ⟨(C163_up h).1, fun g hg => ⟨(C163_up h).2 g hg, (C163_given h g hg).2.1.mono (C163_given h g hg).1⟩, fun _ => C163_all h e⟩

end

/-- The keys 1, 2 and 3 are set, the iterator goes to 1, 1 and 2 are deleted, and `Next` is called twice. -/
def staleCase : Option ((Int × Int) × (Int × Int) × Option Int) :=
  match Skl.run (Skl.new 0#64) ([.set 1 10, .set 2 20, .set 3 30] : List (Op Int Int)) with
  | .ret w => match Skl.next w Skl.iterator with
    | .ret (it, _) => match Skl.run w [.del 1, .del 2] with
      | .ret w' => match Skl.next w' it, Skl.get w' 2 with
        | .ret (it', some a), .ret g => match Skl.next w' it' with
          | .ret (_, some b) => some (a, b, g)
          | _ => none
        | _, _ => none
      | _ => none
    | _ => none
  | _ => none

/-- The first `Next` gives 2, which is no longer in the map, the second 3. -/
theorem C163_stale : staleCase = some ((2, 20), (3, 30), none) := by decide +kernel

/-- An iteration as in `C163_weakly_consistent` in which the key that the iterator stands on is deleted. -/
example : ∃ w it it' g, Iterated (K := Int) (V := Int) 0#64 [.set 1 10, .set 3 30] .start [.del 1] w it [g] ∧ g.key = 1 ∧
    Skl.next w it = .ret (it', some (3, 30)) := by
  obtain ⟨w1, e1⟩ := (C05_calls_return (Reach.init (K := Int) (V := Int) (s := 0#64)) 1 10).1
  have r1 := Reach.init.set e1
  obtain ⟨w2, e2⟩ := (C05_calls_return r1 3 30).1
  have r2 := r1.set e2
  have i0 := Iterated.start r2 (by simp)
  obtain ⟨it1, res, e3, hn⟩ := C05_iteration_under_modification r2 (by simp)
  have hmem : ∀ z, (lookup ([.set 1 10, .set 3 30] : List (Op Int Int)) z).isSome → z = 1 ∨ z = 3 := by
    intro z hz
    by_cases h1 : z = 1
    · exact .inl h1
    · by_cases h3 : z = 3
      · exact .inr h3
      · simp [lookup, h1, h3] at hz
  have hres : res = some (1, 10) := by
    refine C05_isNext_unique hn ⟨trivial, by decide, ?_⟩
    intro z _ hz
    rcases hmem z hz with h | h
    · exact .inl h
    · exact .inr (by simp [GoOrdered.lt, h])
  subst hres
  have i1 := i0.next e3
  obtain ⟨w3, e4⟩ := (C163_returns i1).2 (.del 1)
  have i2 := i1.op (by simp) e4
  obtain ⟨⟨it', res, e5⟩, -⟩ := C163_returns i2
  refine ⟨w3, it1, it', _, i2, rfl, ?_⟩
  have ha : Always ([.set 1 10, .set 3 30] : List (Op Int Int)) [.del 1] 3 := by
    intro pre hp
    have : pre = [] ∨ pre = [.del 1] := by
      obtain ⟨t, ht⟩ := hp
      cases pre with
      | nil => exact .inl rfl
      | cons a pre => simp at ht; simp [ht.1, ht.2.1]
    rcases this with rfl | rfl <;> decide
  cases res with
  | none =>
    obtain ⟨g, hg, hk⟩ := C163_all i2 e5 ha trivial
    simp at hg; subst hg; cases hk
  | some kv =>
    obtain ⟨k, v⟩ := kv
    have i3 := i2.next e5
    have hg := (C163_given i3 ⟨[.del 1], k, v⟩ (by simp)).2.1
    have hup := (C163_up i3).1
    simp [GoOrdered.lt] at hup
    obtain ⟨pre, hp, hl⟩ := hg
    have hk : k = 3 := by
      rcases lookup_present pre (by rw [hl]; rfl) with h | h
      · rcases hmem k h with h | h
        · omega
        · exact h
      · have := setKeys_prefix hp h
        simp [setKeys] at this
    subst hk
    have hv : v = 30 := by
      rcases (C163_given i3 ⟨[.del 1], 3, v⟩ (by simp)).2.2 with h | h
      · have : lookup (([.set 1 10, .set 3 30] : List (Op Int Int)) ++ [.del 1]) 3 = some 30 := by decide
        rw [show ([] ++ [Op.set 1 10] ++ [Op.set 3 30] : List (Op Int Int)) = [.set 1 10, .set 3 30] from rfl] at h
        rw [this] at h
        simpa using h.symm
      · simp at h
    rw [e5, hv]

end Verif.SklWeak
