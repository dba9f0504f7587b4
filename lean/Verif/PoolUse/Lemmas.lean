import Verif.PoolUse.Spec
/-!
# Lemmas for the pool with contents
-/
namespace Verif.PoolUse

variable {T : Type}

theorem holder_snoc (a : Nat) (h : List (Ev T)) (e : Ev T) : holder a (h ++ [e]) = hold a (holder a h) e := by
  simp only [holder, List.foldl_append, List.foldl_cons, List.foldl_nil]

theorem KeepsRules.prefix {p q : List (Ev T)} (k : KeepsRules (p ++ q)) : KeepsRules p := by
  intro a e b hp
  exact k a e (b ++ q) (by rw [hp]; simp)

theorem keeps_nil : KeepsRules ([] : List (Ev T)) := by
  intro p e q h; simp at h

theorem keeps_snoc {h : List (Ev T)} {e : Ev T} (k : KeepsRules h) (ha : Allowed h e) : KeepsRules (h ++ [e]) := by
  intro p e' q hx
  rcases List.eq_nil_or_concat q with rfl | ⟨q, z, rfl⟩
  · obtain ⟨rfl, h2⟩ := List.append_inj' hx rfl
    cases h2; exact ha
  · have : h ++ [e] = (p ++ e' :: q) ++ [z] := by rw [hx]; simp
    exact k p e' q (List.append_inj' this rfl).1

/-- Where the object `a` is, by what happened. -/
structure Inv (h : List (Ev T)) (s : St T) : Prop where
  nodup : s.stored.Nodup
  nonnil : none ∉ s.stored
  lt : ∀ a, some a ∈ s.stored → a < s.brk
  old : ∀ e ∈ h, ∀ a, About a e → a < s.brk
  free : ∀ a, some a ∈ s.stored → holder a h = none
  put : ∀ a, some a ∈ s.stored → ∃ p1 g p2, h = p1 ++ .put g (some a) :: p2 ∧ ∀ e ∈ p2, ¬ About a e
  held : ∀ a g, holder a h = some g → ∃ p1 e p2, h = p1 ++ e :: p2 ∧ Gives g a e ∧ ∀ e' ∈ p2, About a e' → By g e'
  val : ∀ a, a < s.brk → LastSet a (s.val a) h
  new : s.hasNew = true ↔ .init ∈ h

theorem lastSet_snoc {a : Nat} {v : T} {h : List (Ev T)} {e : Ev T} (l : LastSet a v h) (hn : ∀ w, ¬ Sets a w e) :
    LastSet a v (h ++ [e]) := by
  obtain ⟨p, e0, q, rfl, hs, hq⟩ := l
  refine ⟨p, e0, q ++ [e], by simp, hs, fun e' he' => ?_⟩
  rcases List.mem_append.1 he' with h | h
  · exact hq e' h
  · rw [List.mem_singleton.1 h]; exact hn

theorem lastSet_now {a : Nat} {v : T} {h : List (Ev T)} {e : Ev T} (hs : Sets a v e) : LastSet a v (h ++ [e]) :=
  ⟨h, e, [], rfl, hs, by simp⟩

/-- What stays when an event has nothing to do with an object. -/
theorem put_snoc {a : Nat} {h : List (Ev T)} {e : Ev T} (hn : ¬ About a e)
    (l : ∃ p1 g p2, h = p1 ++ .put g (some a) :: p2 ∧ ∀ e ∈ p2, ¬ About a e) :
    ∃ p1 g p2, h ++ [e] = p1 ++ .put g (some a) :: p2 ∧ ∀ e ∈ p2, ¬ About a e := by
  obtain ⟨p1, g, p2, rfl, hq⟩ := l
  refine ⟨p1, g, p2 ++ [e], by simp, fun e' he' => ?_⟩
  rcases List.mem_append.1 he' with h | h
  · exact hq e' h
  · rw [List.mem_singleton.1 h]; exact hn

theorem held_snoc {a g : Nat} {h : List (Ev T)} {e : Ev T} (hn : About a e → By g e)
    (l : ∃ p1 e p2, h = p1 ++ e :: p2 ∧ Gives g a e ∧ ∀ e' ∈ p2, About a e' → By g e') :
    ∃ p1 e' p2, h ++ [e] = p1 ++ e' :: p2 ∧ Gives g a e' ∧ ∀ e' ∈ p2, About a e' → By g e' := by
  obtain ⟨p1, e0, p2, rfl, hg, hq⟩ := l
  refine ⟨p1, e0, p2 ++ [e], by simp, hg, fun e' he' => ?_⟩
  rcases List.mem_append.1 he' with h | h
  · exact hq e' h
  · rw [List.mem_singleton.1 h]; exact hn

variable [Inhabited T] {N : T → Prop}

theorem inv_alloc {h : List (Ev T)} {s : St T} (i : Inv h s) {e : Ev T} {g : Nat} {v : T} (he : e = .made g s.brk v ∨ e = .own g s.brk v) :
    Inv (h ++ [e]) (s.alloc v) := by
  have hh : ∀ a, holder a (h ++ [e]) = if s.brk = a then some g else holder a h := by
    intro a; rw [holder_snoc]; rcases he with rfl | rfl <;> rfl
  have hab : ∀ a, About a e → a = s.brk := by intro a ha; rcases he with rfl | rfl <;> exact ha.symm
  refine ⟨i.nodup, i.nonnil, fun a ha => Nat.lt_succ_of_lt (i.lt a ha), ?_, ?_, ?_, ?_, ?_, ?_⟩
  · intro e' he' a ha
    rcases List.mem_append.1 he' with h1 | h1
    · exact Nat.lt_succ_of_lt (i.old e' h1 a ha)
    · rw [List.mem_singleton.1 h1] at ha
      rw [hab a ha]; exact Nat.lt_succ_self _
  · intro a ha
    rw [hh, if_neg (by have := i.lt a ha; omega)]
    exact i.free a ha
  · intro a ha
    exact put_snoc (fun hx => by have := i.lt a ha; have := hab a hx; omega) (i.put a ha)
  · intro a g' hg
    rw [hh] at hg
    split at hg
    · rename_i e1
      cases hg; cases e1
      exact ⟨h, e, [], rfl, by rcases he with rfl | rfl <;> exact ⟨rfl, rfl⟩, by simp⟩
    · rename_i e1
      exact held_snoc (fun hx => absurd (hab a hx).symm e1) (i.held a g' hg)
  · intro a ha
    by_cases e1 : a = s.brk
    · have : (s.alloc v).val a = v := by simp [St.alloc, e1]
      rw [this, e1]
      exact lastSet_now (by rcases he with rfl | rfl <;> exact ⟨rfl, rfl⟩)
    · have : (s.alloc v).val a = s.val a := by simp [St.alloc, e1]
      rw [this]
      refine lastSet_snoc (i.val a (by simp [St.alloc] at ha; omega)) fun w hw => e1 ?_
      rcases he with rfl | rfl <;> exact hw.1.symm
  · rw [show (s.alloc v).hasNew = s.hasNew from rfl, i.new]
    rcases he with rfl | rfl <;> simp

theorem inv_step {h : List (Ev T)} {s s' : St T} {e : Ev T} (i : Inv h s) (k : KeepsRules (h ++ [e])) (st : Step N s e s') :
    Inv (h ++ [e]) s' := by
  have ke := k h e [] rfl
  have quiet : (∀ a, ¬ About a e) → (e ≠ .init → s'.hasNew = s.hasNew) → (e = .init → s'.hasNew = true) → s'.stored.Sublist s.stored →
      s'.val = s.val → s'.brk = s.brk → (∀ a, holder a (h ++ [e]) = holder a h) → Inv (h ++ [e]) s' := by
    intro h1 h2 h2' h3 h4 h5 h6
    refine ⟨i.nodup.sublist h3, fun hx => i.nonnil (h3.subset hx), fun a ha => h5 ▸ i.lt a (h3.subset ha), ?_, ?_, ?_, ?_, ?_, ?_⟩
    · intro e' he' a ha
      rcases List.mem_append.1 he' with hx | hx
      · exact h5 ▸ i.old e' hx a ha
      · rw [List.mem_singleton.1 hx] at ha; exact absurd ha (h1 a)
    · intro a ha; rw [h6]; exact i.free a (h3.subset ha)
    · intro a ha; exact put_snoc (h1 a) (i.put a (h3.subset ha))
    · intro a g hg; rw [h6] at hg; exact held_snoc (fun hx => absurd hx (h1 a)) (i.held a g hg)
    · intro a ha
      rw [h4]
      refine lastSet_snoc (i.val a (h5 ▸ ha)) fun w hw => h1 a ?_
      cases e <;> simp only [Sets] at hw <;> exact hw.1
    · by_cases hi : e = .init
      · simp [hi, h2' hi]
      · rw [h2 hi, i.new]; simp [Ne.symm hi]
  cases st with
  | init => exact quiet (fun a h => h) (fun h => absurd rfl h) (fun _ => rfl) (List.Sublist.refl _) rfl rfl fun a => by rw [holder_snoc]; rfl
  | panicked g _ => exact quiet (fun a h => h) (fun _ => rfl) (fun h => by cases h) (List.Sublist.refl _) rfl rfl fun a => by rw [holder_snoc]; rfl
  | drop p => exact quiet (fun a h => h) (fun _ => rfl) (fun h => by cases h) List.erase_sublist rfl rfl fun a => by rw [holder_snoc]; rfl
  | made g v _ _ => exact inv_alloc i (.inl rfl)
  | own g v => exact inv_alloc i (.inr rfl)
  | take g p hp =>
    cases p with
    | none => exact absurd hp i.nonnil
    | some b =>
      have hh : ∀ a, holder a (h ++ [Ev.take g (some b)]) = if b = a then some g else holder a h := fun a => by rw [holder_snoc]; rfl
      have hm : ∀ a, some a ∈ s.stored.erase (some b) → a ≠ b ∧ some a ∈ s.stored := fun a ha => by
        rw [i.nodup.mem_erase_iff] at ha
        exact ⟨fun e => ha.1 (by rw [e]), ha.2⟩
      refine ⟨i.nodup.erase _, fun hx => i.nonnil (List.mem_of_mem_erase hx), fun a ha => i.lt a (hm a ha).2, ?_, ?_, ?_, ?_, ?_, ?_⟩
      · intro e' he' a ha
        rcases List.mem_append.1 he' with hx | hx
        · exact i.old e' hx a ha
        · rw [List.mem_singleton.1 hx] at ha; cases ha; exact i.lt b hp
      · intro a ha; rw [hh, if_neg (Ne.symm (hm a ha).1)]; exact i.free a (hm a ha).2
      · intro a ha
        exact put_snoc (fun hx => (hm a ha).1 (Option.some.inj hx).symm) (i.put a (hm a ha).2)
      · intro a g' hg
        rw [hh] at hg
        split at hg
        · rename_i e1; cases hg; cases e1
          exact ⟨h, _, [], rfl, ⟨rfl, rfl⟩, by simp⟩
        · rename_i e1
          exact held_snoc (fun hx => absurd (Option.some.inj hx) e1) (i.held a g' hg)
      · intro a ha; exact lastSet_snoc (i.val a ha) fun w hw => hw
      · simp [i.new]
  | put g p hp =>
    cases p with
    | none => exact absurd ke id
    | some b =>
      have ke : holder b h = some g := ke
      have hh : ∀ a, holder a (h ++ [Ev.put g (some b)]) = if b = a then none else holder a h := fun a => by rw [holder_snoc]; rfl
      have hnb : some b ∉ s.stored := fun hx => by have := i.free b hx; rw [ke] at this; cases this
      refine ⟨List.nodup_cons.2 ⟨hnb, i.nodup⟩, ?_, ?_, ?_, ?_, ?_, ?_, ?_, ?_⟩
      · intro hx
        rcases List.mem_cons.1 hx with e1 | hx
        · cases e1
        · exact i.nonnil hx
      · intro a ha
        rcases List.mem_cons.1 ha with e1 | ha
        · exact hp a e1.symm
        · exact i.lt a ha
      · intro e' he' a ha
        rcases List.mem_append.1 he' with hx | hx
        · exact i.old e' hx a ha
        · rw [List.mem_singleton.1 hx] at ha; cases ha; exact hp _ rfl
      · intro a ha
        rw [hh]
        rcases List.mem_cons.1 ha with e1 | ha
        · rw [if_pos (Option.some.inj e1).symm]
        · split
          · rfl
          · exact i.free a ha
      · intro a ha
        rcases List.mem_cons.1 ha with e1 | ha
        · cases e1; exact ⟨h, g, [], rfl, by simp⟩
        · exact put_snoc (fun hx => hnb (Option.some.inj hx ▸ ha)) (i.put a ha)
      · intro a g' hg
        rw [hh] at hg
        split at hg
        · cases hg
        · rename_i e1
          exact held_snoc (fun hx => absurd (Option.some.inj hx) e1) (i.held a g' hg)
      · intro a ha; exact lastSet_snoc (i.val a ha) fun w hw => hw
      · simp [i.new]
  | write g a v ha =>
    have ke : holder a h = some g := ke
    have hh : ∀ b, holder b (h ++ [Ev.write g a v]) = holder b h := fun b => by rw [holder_snoc]; rfl
    refine ⟨i.nodup, i.nonnil, i.lt, ?_, ?_, ?_, ?_, ?_, ?_⟩
    · intro e' he' b hb
      rcases List.mem_append.1 he' with hx | hx
      · exact i.old e' hx b hb
      · rw [List.mem_singleton.1 hx] at hb; cases hb; exact ha
    · intro b hb; rw [hh]; exact i.free b hb
    · intro b hb
      refine put_snoc (fun hx => ?_) (i.put b hb)
      have hx : a = b := hx
      have := i.free b hb
      rw [← hx, ke] at this; cases this
    · intro b g' hg
      rw [hh] at hg
      refine held_snoc (fun hx => ?_) (i.held b g' hg)
      have hx : a = b := hx
      rw [← hx, ke] at hg
      exact Option.some.inj hg
    · intro b hb
      by_cases e1 : b = a
      · have : (if b = a then v else s.val b) = v := if_pos e1
        show LastSet b (if b = a then v else s.val b) _
        rw [this]; exact lastSet_now ⟨e1.symm, rfl⟩
      · show LastSet b (if b = a then v else s.val b) _
        rw [if_neg e1]
        exact lastSet_snoc (i.val b hb) fun w hw => e1 hw.1.symm
    · simp [i.new]
  | read g a ha =>
    have ke : holder a h = some g := ke
    have hh : ∀ b, holder b (h ++ [Ev.read g a (s.val a)]) = holder b h := fun b => by rw [holder_snoc]; rfl
    refine ⟨i.nodup, i.nonnil, i.lt, ?_, ?_, ?_, ?_, ?_, ?_⟩
    · intro e' he' b hb
      rcases List.mem_append.1 he' with hx | hx
      · exact i.old e' hx b hb
      · rw [List.mem_singleton.1 hx] at hb; cases hb; exact ha
    · intro b hb; rw [hh]; exact i.free b hb
    · intro b hb
      refine put_snoc (fun hx => ?_) (i.put b hb)
      have hx : a = b := hx
      have := i.free b hb
      rw [← hx, ke] at this; cases this
    · intro b g' hg
      rw [hh] at hg
      refine held_snoc (fun hx => ?_) (i.held b g' hg)
      have hx : a = b := hx
      rw [← hx, ke] at hg
      exact Option.some.inj hg
    · intro b hb; exact lastSet_snoc (i.val b hb) fun w hw => hw
    · simp [i.new]

theorem run_split {h : List (Ev T)} {s : St T} (r : Run N h s) : ∀ p e q, h = p ++ e :: q → ∃ s0 s1, Run N p s0 ∧ Step N s0 e s1 := by
  induction r with
  | nil => intro p e q hx; simp at hx
  | @snoc h e' s s' r st ih =>
    intro p e q hx
    rcases List.eq_nil_or_concat q with rfl | ⟨q, z, rfl⟩
    · have := List.append_inj' hx rfl
      obtain ⟨rfl, h2⟩ := this
      cases h2
      exact ⟨s, s', r, st⟩
    · have : h ++ [e'] = (p ++ e :: q) ++ [z] := by rw [hx]; simp
      exact ih p e q (List.append_inj' this rfl).1

theorem run_inv {h : List (Ev T)} {s : St T} (r : Run N h s) (k : KeepsRules h) : Inv h s := by
  induction r with
  | nil =>
    refine ⟨by simp [start], by simp [start], by simp [start], by simp, by simp [start], by simp [start], ?_, by simp [start], by simp [start]⟩
    intro a g h; cases h
  | snoc r st ih => exact inv_step (ih k.prefix) k st

/-- Every event of `t` is allowed, after `h`. -/
def Oks (h : List (Ev T)) : List (Ev T) → Prop
  | [] => True
  | e :: t => Allowed h e ∧ Oks (h ++ [e]) t

theorem keeps_of_oks : ∀ (t h : List (Ev T)), KeepsRules h → Oks h t → KeepsRules (h ++ t)
  | [], h, k, _ => by simpa using k
  | e :: t, h, k, o => by
    have := keeps_of_oks t (h ++ [e]) (keeps_snoc k o.1) o.2
    simpa using this

/-- The step of an event for a pool of numbers whose `New` gives 0, when there is one. -/
def next (s : St Nat) : Ev Nat → Option (St Nat)
  | .init => some { s with hasNew := true }
  | .take _ p => if p ∈ s.stored then some { s with stored := s.stored.erase p } else none
  | .made _ a v => if s.hasNew = true ∧ v = 0 ∧ a = s.brk then some (s.alloc v) else none
  | .panicked _ => if s.hasNew = false then some s else none
  | .put _ none => some { s with stored := none :: s.stored }
  | .put _ (some a) => if a < s.brk then some { s with stored := some a :: s.stored } else none
  | .own _ a v => if a = s.brk then some (s.alloc v) else none
  | .write _ a v => if a < s.brk then some { s with val := fun b => if b = a then v else s.val b } else none
  | .read _ a v => if a < s.brk ∧ v = s.val a then some s else none
  | .drop p => some { s with stored := s.stored.erase p }

theorem next_sound {s s' : St Nat} {e : Ev Nat} (h : next s e = some s') : Step (· = 0) s e s' := by
  cases e with
  | init => cases h; exact .init s
  | take g p => simp only [next] at h; split at h <;> cases h; exact .take s g p (by assumption)
  | made g a v =>
    simp only [next] at h; split at h <;> cases h
    rename_i hc; obtain ⟨h1, h2, rfl⟩ := hc; exact .made s g v h1 h2
  | panicked g => simp only [next] at h; split at h <;> cases h; exact .panicked _ g (by assumption)
  | put g p =>
    cases p with
    | none => cases h; exact .put s g none (by simp)
    | some a => simp only [next] at h; split at h <;> cases h; exact .put s g (some a) (by intro b hb; cases hb; assumption)
  | own g a v => simp only [next] at h; split at h <;> cases h; rename_i hc; subst hc; exact .own s g v
  | write g a v => simp only [next] at h; split at h <;> cases h; exact .write s g a v (by assumption)
  | read g a v =>
    simp only [next] at h; split at h <;> cases h
    rename_i hc; obtain ⟨h1, rfl⟩ := hc; exact .read _ g a h1
  | drop p => cases h; exact .drop s p

/-- All events of `t` in turn. -/
def nexts (s : St Nat) : List (Ev Nat) → Option (St Nat)
  | [] => some s
  | e :: t => match next s e with
    | some s' => nexts s' t
    | none => none

theorem run_nexts : ∀ (t h : List (Ev Nat)) (s s' : St Nat), Run (· = 0) h s → nexts s t = some s' → Run (· = 0) (h ++ t) s'
  | [], h, s, s', r, hn => by cases hn; simpa using r
  | e :: t, h, s, s', r, hn => by
    simp only [nexts] at hn
    split at hn
    · rename_i s1 h1
      have := run_nexts t (h ++ [e]) s1 s' (r.snoc (next_sound h1)) hn
      simpa using this
    · cases hn

/-- An execution, from a computation. -/
theorem run_of {t : List (Ev Nat)} (h : (nexts start t).isSome = true) : ∃ s, Run (· = 0) t s := by
  obtain ⟨s, hs⟩ := Option.isSome_iff_exists.1 h
  exact ⟨s, run_nexts t [] start s .nil hs⟩

theorem hasNew_iff {h : List (Ev T)} {s : St T} (r : Run N h s) : s.hasNew = true ↔ .init ∈ h := by
  induction r with
  | nil => simp [start]
  | snoc r st ih => cases st <;> simp_all [St.alloc]

/-- Two accounts of the last content are the same. -/
theorem lastSet_unique {a : Nat} {v w : T} {h : List (Ev T)} (h1 : LastSet a v h) (h2 : LastSet a w h) : v = w := by
  obtain ⟨p, e, q, rfl, hs, hq⟩ := h1
  obtain ⟨p', e', q', hx, hs', hq'⟩ := h2
  have key : ∀ (e : Ev T) {x y : T}, Sets a x e → Sets a y e → x = y := by
    intro e x y hx hy; cases e <;> simp only [Sets] at hx hy <;> exact hx.2.symm.trans hy.2
  rcases List.append_eq_append_iff.1 hx with ⟨l, h3, h4⟩ | ⟨l, h3, h4⟩
  · cases l with
    | nil => simp at h4; rw [← h4.1] at hs'; exact key _ hs hs'
    | cons b l =>
      simp at h4
      exact absurd hs' (hq e' (by rw [h4.2]; simp) w)
  · cases l with
    | nil => simp at h4; rw [h4.1] at hs'; exact key _ hs hs'
    | cons b l =>
      simp at h4
      exact absurd hs (hq' e (by rw [h4.2]; simp) v)

end Verif.PoolUse
