import Verif.PoolIdle.Model
import Verif.GoPool.Lemmas
/-!
# Lemmas: the idle list is ordered by the time of the append
-/
namespace Verif.PoolIdle
open Verif.GoPool

variable {mx idle δ : Int} {p : Nat} {T T' : TSt} {s s' : St}

theorem TStep.step (h : TStep idle δ T T') : T'.s = T.s ∨ Step T.s T'.s := by
  cases h with
  | wait d h => exact .inl rfl
  | other s' h _ => exact .inr h
  | done k w c j h => exact .inr (.handled _ k w c j h)
  | stamp k w c h => exact .inr (.stamp _ k w c _ h)
  | back k w c h h1 _ => exact .inr (.freeBack _ k w c h h1)
  | tick l h h1 h2 => exact .inr (.tick _ _ l h h1 h2)

theorem TReach.reach (h : TReach mx p idle δ T) : Reach mx p T.s := by
  induction h with
  | init t c _ _ => exact .init t
  | step _ st ih =>
    rcases st.step with e | e
    · rw [e]; exact ih
    · exact ih.step e

/-- What a step without clock readings leaves alone. -/
structure Calm (s s' : St) : Prop where
  dobby : s'.dobby.Sublist s.dobby
  tt : ∀ w, s'.tt w = s.tt w ∨ w ∈ s.gc.held
  free : ∀ k w c, s'.gor k = .free w c → s.gor k = .free w c

theorem setGor_free {s : St} {k k' : Nat} {q : GorPc} {w c : Nat} (hq : ∀ w c, q ≠ .free w c)
    (h : (s.setGor k q).gor k' = .free w c) : s.gor k' = .free w c := by
  simp only [St.setGor] at h
  split at h
  · exact absurd h (hq w c)
  · exact h

theorem calm (h : Step s s') (u : Untimed s s') : Calm s s' := by
  obtain ⟨u1, u2⟩ := u
  cases h with
  | runReuse j ws w h h1 h2 =>
    refine ⟨?_, fun w => .inl rfl, fun k w c h => h⟩
    simp only [St.setJob, h2]
    exact List.sublist_append_left _ _
  | runPooled j w p p' h h1 h2 h3 h4 =>
    refine ⟨List.Sublist.refl _, fun w => .inl rfl, fun k w c h => ?_⟩
    simp only [St.setJob, St.spawn] at h
    split at h
    · cases h
    · exact h
  | runFresh j h h1 h2 h3 =>
    refine ⟨List.Sublist.refl _, fun w => .inl rfl, fun k w c h => ?_⟩
    simp only [St.setJob, St.spawn] at h
    split at h
    · cases h
    · exact h
  | begin k w h => exact ⟨List.Sublist.refl _, fun w => .inl rfl, fun k w c h => setGor_free (by simp) h⟩
  | take k w c j h h1 => exact ⟨List.Sublist.refl _, fun w => .inl rfl, fun k w c h => setGor_free (by simp) h⟩
  | rangeEnd k w c h h1 h2 => exact ⟨List.Sublist.refl _, fun w => .inl rfl, fun k w c h => setGor_free (by simp) h⟩
  | handled k w c j h => exact ⟨List.Sublist.refl _, fun w => .inl rfl, fun k w c h => setGor_free (by simp) h⟩
  | stamp k w c t h =>
    have := u1 k
    rw [h] at this
    simp [St.setGor] at this
  | freeDraining k w c h h1 => exact ⟨List.Sublist.refl _, fun w => .inl rfl, fun k w c h => setGor_free (by simp) h⟩
  | freeBack k w c h h1 =>
    have := u1 k
    rw [h] at this
    simp [St.setGor] at this
  | exit k h => exact ⟨List.Sublist.refl _, fun w => .inl rfl, fun k w c h => setGor_free (by simp) h⟩
  | tick now l h h1 h2 => exact absurd rfl (u2 h _)
  | clearOne w ws h =>
    refine ⟨List.Sublist.refl _, fun x => ?_, fun k w c h => h⟩
    by_cases hx : x = w
    · subst hx; right; rw [h]; simp [GcPc.held]
    · left; simp [hx]
  | _ => exact ⟨List.Sublist.refl _, fun w => .inl rfl, fun k w c h => h⟩

/-- The invariant. -/
structure J (δ : Int) (T : TSt) : Prop where
  mem : ∀ w ∈ T.s.dobby, T.done w ≤ T.s.tt w ∧ T.s.tt w ≤ T.back w ∧ T.back w ≤ T.clock ∧ T.back w - T.done w ≤ δ
  ord : T.s.dobby.Pairwise (fun a b => T.back a ≤ T.back b)
  now : ∀ w, T.done w ≤ T.clock
  free : ∀ k w c, T.s.gor k = .free w c → T.done w ≤ T.s.tt w ∧ T.s.tt w ≤ T.clock

theorem J.init {t : Nat → Int} {c : Int} (hδ : 0 ≤ δ) (h1 : ∀ i j, i ≤ j → t i ≤ t j) (h2 : ∀ i, t i ≤ c) :
    J δ (tinit mx p t c) := by
  refine ⟨fun w _ => ⟨Int.le_refl _, Int.le_refl _, h2 w, ?_⟩, ?_, h2, fun k w c h => ?_⟩
  · simp only [tinit]; omega
  · simp only [tinit, GoPool.init]
    rw [List.pairwise_iff_getElem]
    intro i j hi hj hij
    simp only [List.getElem_range]
    exact h1 i j (by omega)
  · simp only [tinit, GoPool.init] at h
    split at h <;> cases h

theorem busy_not_dobby {tok : Nat → Loc} {cw rdr jc : Nat → Nat} (i : Inv s tok cw rdr jc) {k w c : Nat}
    (h : (s.gor k).busyOn = some (w, c)) : w ∉ s.dobby := by
  rw [i.dobby1, (i.busy1 k w c h).1]
  simp

theorem busy_only {tok : Nat → Loc} {cw rdr jc : Nat → Nat} (i : Inv s tok cw rdr jc) {k k' w c c' : Nat}
    (h : (s.gor k).busyOn = some (w, c)) (h' : (s.gor k').busyOn = some (w, c')) : k' = k := by
  have h1 := (i.busy1 k w c h).1
  have h2 := (i.busy1 k' w c' h').1
  rw [h1] at h2
  cases h2
  rfl

theorem held_not_free {tok : Nat → Loc} {cw rdr jc : Nat → Nat} (i : Inv s tok cw rdr jc) {k w c : Nat}
    (h : (s.gor k).busyOn = some (w, c)) : w ∉ s.gc.held := by
  rw [i.gc1, (i.busy1 k w c h).1]
  simp

theorem held_not_dobby {tok : Nat → Loc} {cw rdr jc : Nat → Nat} (i : Inv s tok cw rdr jc) {w : Nat} (h : w ∈ s.dobby) :
    w ∉ s.gc.held := by
  rw [i.gc1, (i.dobby1 w).1 h]
  simp

theorem J.step {tok : Nat → Loc} {cw rdr jc : Nat → Nat} (j : J δ T) (i : Inv T.s tok cw rdr jc) (h : TStep idle δ T T') : J δ T' := by
  cases h with
  | wait d hd =>
    refine ⟨fun w hw => ?_, j.ord, fun w => ?_, fun k w c h => ?_⟩
    · obtain ⟨h1, h2, h3, h4⟩ := j.mem w hw
      exact ⟨h1, h2, by simp only; omega, h4⟩
    · have := j.now w; simp only; omega
    · obtain ⟨h1, h2⟩ := j.free k w c h
      exact ⟨h1, by simp only; omega⟩
  | other s' st u =>
    obtain ⟨c1, c2, c3⟩ := calm st u
    refine ⟨fun w hw => ?_, List.Pairwise.sublist c1 j.ord, j.now, fun k w c h => ?_⟩
    · have hw' := c1.subset hw
      rcases c2 w with e | e
      · simp only [e]; exact j.mem w hw'
      · exact absurd e (held_not_dobby i hw')
    · have h' := c3 k w c h
      rcases c2 w with e | e
      · simp only [e]; exact j.free k w c h'
      · exact absurd e (held_not_free (k := k) (c := c) i (by rw [h']; rfl))
  | done k w c jb h =>
    have hb : (T.s.gor k).busyOn = some (w, c) := by rw [h]; rfl
    refine ⟨fun x hx => ?_, j.ord, fun x => ?_, fun k' x c' h' => ?_⟩
    · have hne : x ≠ w := fun e => busy_not_dobby i hb (e ▸ hx)
      simp only [hne, if_false]
      exact j.mem x hx
    · simp only
      split
      · exact Int.le_refl _
      · exact j.now x
    · have hf : T.s.gor k' = .free x c' := setGor_free (by simp) h'
      have hne : x ≠ w := by
        rintro rfl
        have := busy_only (k' := k') (c' := c') i hb (by rw [hf]; rfl)
        subst this
        rw [h] at hf; cases hf
      simp only [hne, if_false]
      exact j.free k' x c' hf
  | stamp k w c h =>
    have hb : (T.s.gor k).busyOn = some (w, c) := by rw [h]; rfl
    refine ⟨fun x hx => ?_, j.ord, j.now, fun k' x c' h' => ?_⟩
    · have hne : x ≠ w := fun e => busy_not_dobby i hb (e ▸ hx)
      simp only [St.setGor, hne, if_false]
      exact j.mem x hx
    · simp only [St.setGor] at h' ⊢
      by_cases hk : k' = k
      · rw [if_pos hk] at h'
        injection h' with e1 e2
        subst e1
        simp only [if_true]
        exact ⟨j.now _, Int.le_refl _⟩
      · rw [if_neg hk] at h'
        have hne : x ≠ w := by
          rintro rfl
          exact hk (busy_only (k' := k') (c' := c') i hb (by rw [h']; rfl))
        simp only [hne, if_false]
        exact j.free k' x c' h'
  | back k w c h h1 hd =>
    have hb : (T.s.gor k).busyOn = some (w, c) := by rw [h]; rfl
    have hn := busy_not_dobby i hb
    obtain ⟨f1, f2⟩ := j.free k w c h
    refine ⟨fun x hx => ?_, ?_, j.now, fun k' x c' h' => ?_⟩
    · simp only [St.setGor, List.mem_append, List.mem_singleton] at hx ⊢
      by_cases hxw : x = w
      · subst hxw
        simp only [if_true]
        exact ⟨f1, f2, Int.le_refl _, hd⟩
      · simp only [hxw, or_false, if_false] at hx ⊢
        exact j.mem x hx
    · simp only [St.setGor]
      rw [List.pairwise_append]
      refine ⟨?_, by simp, ?_⟩
      · refine List.Pairwise.imp_of_mem ?_ j.ord
        intro a b ha hb' hab
        have ha' : a ≠ w := fun e => hn (e ▸ ha)
        have hb'' : b ≠ w := fun e => hn (e ▸ hb')
        simpa [ha', hb''] using hab
      · intro a ha b hb'
        rw [List.mem_singleton] at hb'
        subst hb'
        have ha' : a ≠ b := fun e => hn (e ▸ ha)
        simp only [ha', if_false, if_true]
        exact (j.mem a ha).2.2.1
    · exact j.free k' x c' (setGor_free (by simp) h')
  | tick l h h1 h2 =>
    exact ⟨fun w hw => j.mem w (List.mem_of_mem_drop hw), List.Pairwise.sublist (List.drop_sublist _ _) j.ord, j.now, j.free⟩

theorem TReach.j (hm : 0 < mx) (hδ : 0 ≤ δ) (h : TReach mx p idle δ T) : J δ T := by
  induction h with
  | init t c h1 h2 => exact J.init hδ h1 h2
  | step r st ih =>
    obtain ⟨tok, cw, rdr, jc, i⟩ := inv_reach hm r.reach
    exact ih.step i st

/-- What the binary search finds in any list: an old entry at the end of what it takes, a young one at the start of
what it leaves. -/
theorem cutLoop_ends {ts : List Int} {now : Int} {l r x : Nat} (hl : l ≤ r) (hr : r ≤ ts.length)
    (h1 : l = 0 ∨ ∃ v, ts[l - 1]? = some v ∧ v < now) (h2 : r = ts.length ∨ ∃ v, ts[r]? = some v ∧ now ≤ v)
    (e : cutLoop ts now l r = some x) :
    (x = 0 ∨ ∃ v, ts[x - 1]? = some v ∧ v < now) ∧ (x = ts.length ∨ ∃ v, ts[x]? = some v ∧ now ≤ v) := by
  induction hn : r - l using Nat.strongRecOn generalizing l r with
  | _ n ih =>
    rw [cutLoop] at e
    split at e
    · have hm : (l + r) / 2 < ts.length := by omega
      rw [List.getElem?_eq_getElem hm] at e
      dsimp only at e
      split at e
      · rename_i hlt
        exact ih (r - ((l + r) / 2 + 1)) (by omega) (by omega) hr
          (.inr ⟨_, by rw [Nat.add_sub_cancel, List.getElem?_eq_getElem hm], hlt⟩) h2 e rfl
      · rename_i hge
        exact ih ((l + r) / 2 - l) (by omega) (by omega) (by omega) h1
          (.inr ⟨_, List.getElem?_eq_getElem hm, by omega⟩) e rfl
    · injection e with e
      have : r = x := by omega
      rw [e] at h1
      rw [this] at h2
      exact ⟨h1, h2⟩

theorem cut_ends {ts : List Int} {now : Int} {x : Nat} (e : cut ts now = some x) :
    x ≤ ts.length ∧ (x = 0 ∨ ∃ v, ts[x - 1]? = some v ∧ v < now) ∧ (x = ts.length ∨ ∃ v, ts[x]? = some v ∧ now ≤ v) := by
  obtain ⟨y, hy, hle⟩ := cut_some ts now
  rw [hy] at e; cases e
  refine ⟨hle, ?_⟩
  unfold cut at hy
  split at hy
  · exact cutLoop_ends (Nat.zero_le _) (Nat.le_refl _) (.inl rfl) (.inl rfl) hy
  · cases hy
    exact ⟨.inl rfl, .inl (by omega)⟩

end Verif.PoolIdle
