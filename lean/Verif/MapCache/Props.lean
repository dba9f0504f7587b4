import Verif.MapCache.Lemmas
/-!
# C167: a concurrent map as a cache
-/
namespace Verif.MapCache
open Verif.Conc Verif.Conc.RW Verif.SyncMap Verif.SyncAny Verif.SyncKey Verif.MapProg

/-- The keys of the examples. -/
abbrev natEq : Nat → Nat → Bool := fun a b => decide (a = b)

theorem natEq_partial : PartialEq natEq := ⟨fun h => by simp_all, fun h h' => by simp_all⟩

/-- Goroutine 0 asks for 5 twice, goroutine 1 drops it. -/
def dropped : Nat → List (Req Nat)
  | 0 => [.look 5, .look 5]
  | 1 => [.drop 5]
  | _ => []

/-- The entry is dropped after `Has` has found it: `Get` returns the zero value. -/
theorem lost : ∃ s, CReach (syncmap natEq) (cache (fun _ => 7)) (fun t => fresh (dropped t)) s ∧ (s.loc 0).res = [7, 0] := by
  have h := AReach.start (o := seqObj (syncmap (V := Nat) natEq)) (p := cache (fun _ => 7)) (l := fun t => fresh (dropped t))
  replace h := h.step (t := 0) (.mk rfl ⟨[], .refl, rfl, rfl⟩)
  replace h := h.step (t := 0) (.mk rfl ⟨[], .refl, rfl, rfl⟩)
  replace h := h.step (t := 0) (.mk rfl ⟨[], .refl, rfl, rfl⟩)
  replace h := h.step (t := 1) (.mk rfl ⟨[], .refl, rfl, rfl⟩)
  replace h := h.step (t := 0) (.mk rfl ⟨[], .refl, rfl, rfl⟩)
  obtain ⟨s, h1, _, h3, _⟩ := C166_sequential h
  exact ⟨s, h1, by rw [h3]; rfl⟩

/-- **C167, refuted.** When entries are dropped meanwhile the cache can return the zero value instead of the value. -/
theorem C167_refuted : ¬ C167_full := by
  intro h
  obtain ⟨s, h1, h2⟩ := lost
  have := h Nat Nat natEq (fun _ => 7) dropped natEq_partial (fun _ _ _ => rfl) s h1 0
  rw [h2] at this
  exact absurd this (by decide)

variable {K V : Type} [Inhabited V] {eq : K → K → Bool} {f : K → V} {prog : Nat → List (Req K)}

/-- A goroutine that has answered everything is outside the map. -/
theorem idle_of_done {p : Client (Loc K V) (Call K V) (Res K V)} {l : Nat → Loc K V} {s : CSt _ (List (K × V)) _ _ (Loc K V)}
    (h : CReach (syncmap eq) p l s) {t : Nat} (hc : p.call (s.loc t) = none) : s.obj.pc t = .idle := by
  cases e : s.obj.pc t with
  | idle => rfl
  | want _ c => have := h.calls (t := t) (c := c) (by rw [e]; rfl); rw [hc] at this; cases this
  | body _ c _ => have := h.calls (t := t) (c := c) (by rw [e]; rfl); rw [hc] at this; cases this
  | held _ c _ => have := h.calls (t := t) (c := c) (by rw [e]; rfl); rw [hc] at this; cases this
  | out _ c _ => have := h.calls (t := t) (c := c) (by rw [e]; rfl); rw [hc] at this; cases this

/-- **C167, without drops.** In every schedule, for every key type: the values returned are those of `f`, in the order of the requests, and all of
them when the goroutine has answered its requests. -/
theorem C167_partial (pe : PartialEq eq) (hf : Respects eq f) (hk : ∀ t, Keeps (prog t)) {s : CSt _ (List (K × V)) _ _ (Loc K V)}
    (h : CReach (syncmap eq) (cache f) (fun t => fresh (prog t)) s) (t : Nat) :
    (s.loc t).res <+: (looks (prog t)).map f ∧ ((s.loc t).todo = [] → (s.loc t).res = (looks (prog t)).map f) := by
  obtain ⟨hist, h1, _⟩ := C166_atomic pe h
  obtain ⟨done, h2, h3⟩ := (inv2_reach pe hf hk h1).todo t
  simp only at h2 h3
  constructor
  · refine (view_grows (f := f) (s.loc t) (s.obj.pc t)).1.trans ?_
    rw [h3, h2]
    unfold looks
    rw [List.filterMap_append, List.map_append]
    exact List.prefix_append _ _
  · intro e
    have hi := idle_of_done h (t := t) (show call f (s.loc t) = none by unfold call; rw [e])
    rw [hi] at h2 h3
    simp only [view, e, List.append_nil] at h2 h3
    rw [h3, h2]

/-- **C167, once each.** Without drops every goroutine computes `f` at most once for keys that are `==`. -/
theorem C167_once (pe : PartialEq eq) (hf : Respects eq f) (hk : ∀ t, Keeps (prog t)) {s : CSt _ (List (K × V)) _ _ (Loc K V)}
    (h : CReach (syncmap eq) (cache f) (fun t => fresh (prog t)) s) (t : Nat) : (s.loc t).comp.Pairwise (fun a b => eq a b = false) := by
  obtain ⟨hist, h1, _⟩ := C166_atomic pe h
  exact ((inv2_reach pe hf hk h1).once t).sublist (view_grows (f := f) (s.loc t) (s.obj.pc t)).2.sublist

/-- **C167, with drops.** What is returned is the value of `f` or the zero value, never the value of another key. -/
theorem C167_drops (pe : PartialEq eq) (hf : Respects eq f) {s : CSt _ (List (K × V)) _ _ (Loc K V)}
    (h : CReach (syncmap eq) (cache f) (fun t => fresh (prog t)) s) (t : Nat) :
    List.Forall₂ (RightOrZero f) ((looks (prog t)).take (s.loc t).res.length) (s.loc t).res := by
  obtain ⟨hist, h1, _⟩ := C166_atomic pe h
  obtain ⟨done, h2, h3⟩ := (inv_reach hf h1).todo t
  simp only at h2 h3
  have hp := (view_grows (f := f) (s.loc t) (s.obj.pc t)).1
  generalize (view (cache f) (s.loc t) (s.obj.pc t)).res = res at h3 hp
  have hl := h3.length_eq
  have hle := hp.length_le
  have e : (looks (prog t)).take (s.loc t).res.length = (looks done).take (s.loc t).res.length := by
    rw [h2]
    unfold looks at hl ⊢
    rw [List.filterMap_append, List.take_append_of_le_length (by omega)]
  rw [e, List.prefix_iff_eq_take.1 hp]
  have := List.forall₂_take (s.loc t).res.length h3
  simpa [Nat.min_eq_left hle] using this

/-- **C167, with `Get` alone.** The cache that asks once, and computes when it gets the zero value, is right whatever is dropped meanwhile, also
for an `f` that has zero values. -/
theorem C167_get [DecidableEq V] (pe : PartialEq eq) (hf : Respects eq f) {s : CSt _ (List (K × V)) _ _ (Loc K V)}
    (h : CReach (syncmap eq) (cache1 f) (fun t => fresh (prog t)) s) (t : Nat) :
    (s.loc t).res <+: (looks (prog t)).map f ∧ ((s.loc t).todo = [] → (s.loc t).res = (looks (prog t)).map f) := by
  obtain ⟨hist, h1, _⟩ := C166_atomic pe h
  obtain ⟨done, h2, h3⟩ := (inv1_reach hf h1).todo t
  simp only at h2 h3
  constructor
  · refine (view1_grows (f := f) (s.loc t) (s.obj.pc t)).trans ?_
    rw [h3, h2]
    unfold looks
    rw [List.filterMap_append, List.map_append]
    exact List.prefix_append _ _
  · intro e
    have hi := idle_of_done h (t := t) (show call1 f (s.loc t) = none by unfold call1; rw [e])
    rw [hi] at h2 h3
    simp only [view, e, List.append_nil] at h2 h3
    rw [h3, h2]

/-- **C167, an end.** Finitely many goroutines come to the end of their requests, with everything answered. -/
theorem C167_ends (pe : PartialEq eq) {N : Nat} (hN : ∀ t, N ≤ t → prog t = []) {s : CSt _ (List (K × V)) _ _ (Loc K V)}
    (h : CReach (syncmap eq) (cache f) (fun t => fresh (prog t)) s) :
    Acc (fun s' s => CStep (syncmap eq) (cache f) s s') s ∧ ((¬ ∃ s', CStep (syncmap eq) (cache f) s s') → ∀ t, (s.loc t).todo = []) := by
  constructor
  · refine C166_ends pe (N := N) (fun t ht => by show call f (fresh (prog t)) = none; rw [hN t ht]; rfl) (fun x hx => ?_) h
    have hout : ∀ t, N ≤ t → (x.2 t).todo = [] := by
      induction hx with
      | start => exact fun t ht => hN t ht
      | @step a b u _ st ih =>
        intro t ht
        cases st with
        | @mk m l c r m' hc hst =>
          by_cases e : t = u
          · subst e
            have : call f (l t) = some c := hc
            have h0 := ih t ht
            simp only at h0
            unfold call at this
            rw [h0] at this
            cases this
          · simp only [setLoc_ne _ _ e]; exact ih t ht
    have hacc := acc_prod (R := fun _ (a b : Loc K V) => a.cost < b.cost) N x.2
      (fun t _ => (InvImage.wf (fun a : Loc K V => a.cost) Nat.lt_wfRel.wf).apply _)
    clear hx h
    generalize hy : x.2 = y at hacc
    induction hacc generalizing x with
    | intro y _ ih =>
      subst hy
      refine ⟨_, fun b ⟨t, st⟩ => ?_⟩
      obtain ⟨h1, h2⟩ := cost_step st
      have ht : t < N := by
        by_contra hc
        have h0 := hout t (by omega)
        cases st with
        | @mk m l c r m' hc _ =>
          have : call f (l t) = some c := hc
          simp only at h0
          unfold call at this
          rw [h0] at this
          cases this
      refine ih b.2 ⟨t, ht, h1, h2⟩ b (fun u hu => ?_) rfl
      rw [h2 u (by omega)]; exact hout u hu
  · intro hn t
    have := (C166_stuck h hn t).2
    have hc : call f (s.loc t) = none := this
    unfold call at hc
    split at hc
    · assumption
    all_goals cases hc

/-! ## Cases -/

/-- Goroutines 0 and 1 ask for 5. -/
def both : Nat → List (Req Nat)
  | 0 => [.look 5, .look 6, .look 5]
  | 1 => [.look 5]
  | _ => []

example : (∀ t, Keeps (both t)) ∧ (∀ t, 2 ≤ t → both t = []) ∧ (looks (both 0)).map (fun k => k * k) = [25, 36, 25] := by
  refine ⟨fun t r hr => ?_, fun t ht => ?_, by decide⟩
  · match t with
    | 0 => rcases r with k | k | _ <;> simp [both] at hr <;> exact ⟨_, rfl⟩
    | 1 => rcases r with k | k | _ <;> simp [both] at hr <;> exact ⟨_, rfl⟩
    | t + 2 => cases hr
  · match t with
    | t + 2 => rfl

/-- Two goroutines may compute the same value. -/
theorem C167_twice : ∃ s, CReach (syncmap natEq) (cache (fun k => k * k)) (fun t => fresh (both t)) s ∧ (s.loc 0).comp = [5] ∧ (s.loc 1).comp = [5] := by
  have h := AReach.start (o := seqObj (syncmap (V := Nat) natEq)) (p := cache (fun k => k * k)) (l := fun t => fresh (both t))
  replace h := h.step (t := 0) (.mk rfl ⟨[], .refl, rfl, rfl⟩)
  replace h := h.step (t := 1) (.mk rfl ⟨[], .refl, rfl, rfl⟩)
  obtain ⟨s, h1, _, h3, _⟩ := C166_sequential h
  exact ⟨s, h1, by rw [h3]; rfl, by rw [h3]; rfl⟩

end Verif.MapCache
