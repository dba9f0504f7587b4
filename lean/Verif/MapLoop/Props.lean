import Verif.MapLoop.Lemmas
import Verif.Conc.Prod
/-!
# C168: a loop over the keys of a concurrent map, with `Get` in it
-/
namespace Verif.MapLoop
open Verif.Conc Verif.Conc.RW Verif.SyncMap Verif.SyncAny Verif.SyncKey Verif.MapProg Relation

/-- The keys of the examples. -/
abbrev natEq : Nat → Nat → Bool := fun a b => decide (a = b)

theorem natEq_partial : PartialEq natEq := ⟨fun h => by simp_all, fun h h' => by simp_all⟩

/-- Goroutine 1 stores two values together, then two others, by four calls. -/
def pairs : List (Call Nat Nat) := [.set 1 1, .set 2 1, .set 1 2, .set 2 2]

/-- Goroutine 0 loops. -/
def torn : Nat → Loop Nat Nat ⊕ List (Call Nat Nat)
  | 0 => .inl .start
  | 1 => .inr pairs
  | _ => .inr []

theorem torn_outside : Outside torn := by
  intro t todo out
  match t with
  | 0 => nofun
  | 1 => nofun
  | t + 2 => nofun

theorem torn_run : ∃ s, CReach (syncmap natEq) (withLoop calls) torn s ∧ s.loc 0 = .inl (.go [] [(1, 1), (2, 2)]) := by
  have h := AReach.start (o := seqObj (syncmap (V := Nat) natEq)) (p := withLoop calls) (l := torn)
  replace h := h.step (t := 1) (.mk rfl ⟨[], .refl, rfl, rfl⟩)
  replace h := h.step (t := 1) (.mk rfl ⟨[], .refl, rfl, rfl⟩)
  replace h := h.step (t := 0) (.mk rfl ⟨[(1, 1), (2, 1)], .tail (.tail .refl
    ⟨.inl rfl, (1, 1), rfl, ((List.Sublist.refl _).cons _).subperm⟩) ⟨.inl rfl, (2, 1), rfl, (List.Perm.swap (2, 1) (1, 1) []).subperm⟩,
    List.Perm.swap (2, 1) (1, 1) [], rfl, rfl⟩)
  replace h := h.step (t := 0) (.mk rfl ⟨[], .refl, rfl, rfl⟩)
  replace h := h.step (t := 1) (.mk rfl ⟨[], .refl, rfl, rfl⟩)
  replace h := h.step (t := 1) (.mk rfl ⟨[], .refl, rfl, rfl⟩)
  replace h := h.step (t := 0) (.mk rfl ⟨[], .refl, rfl, rfl⟩)
  obtain ⟨s, h1, _, h3, _⟩ := C166_sequential h
  exact ⟨s, h1, by rw [h3]; rfl⟩

/-- What is in the map of `torn` at any moment. -/
theorem torn_maps {hist : List (Op Nat Nat)} {l' : Nat → Loop Nat Nat ⊕ List (Call Nat Nat)} (h : AReach (histObj natEq) (withLoop calls) torn (hist, l')) :
    hist <+: [.set 1 1, .set 2 1, .set 1 2, .set 2 2] := by
  have key : ∀ x, AReach (histObj natEq) (withLoop calls) torn x → (∃ n, x.1 = [Op.set 1 1, .set 2 1, .set 1 2, .set 2 2].take n ∧ x.2 1 = .inr (pairs.drop n)) ∧
      (∃ y, x.2 0 = .inl y) ∧ ∀ t, 2 ≤ t → x.2 t = .inr [] := by
    intro x hx
    induction hx with
    | start => exact ⟨⟨0, rfl, rfl⟩, ⟨_, rfl⟩, fun t ht => by match t with | t + 2 => rfl⟩
    | @step a b t _ st ih =>
      obtain ⟨⟨n, h1, h2⟩, ⟨y, h3⟩, h4⟩ := ih
      cases st with
      | @mk m l c r m' hc hst =>
        simp only at h1 h2 h3 h4 ⊢
        match t with
        | 0 =>
          rw [h3] at hc ⊢
          have e1 : setLoc l 0 ((withLoop calls).resume (.inl y) r) 1 = l 1 := setLoc_ne _ _ (by decide)
          have e2 : ∀ t, 2 ≤ t → setLoc l 0 ((withLoop calls).resume (.inl y) r) t = .inr [] := fun t ht => by
            rw [setLoc_ne _ _ (by omega)]; exact h4 t ht
          match y with
          | .start =>
            cases hc
            obtain ⟨⟨es, he, rfl⟩, rfl⟩ := hst
            exact ⟨⟨n, h1, e1.trans h2⟩, ⟨_, setLoc_same _ _ _⟩, e2⟩
          | .go [] o => cases hc
          | .go (k :: ks) o =>
            cases hc
            obtain ⟨rfl, rfl⟩ := hst
            exact ⟨⟨n, h1, e1.trans h2⟩, ⟨_, setLoc_same _ _ _⟩, e2⟩
        | 1 =>
          rw [h2] at hc ⊢
          have e1 : setLoc l 1 ((withLoop calls).resume (.inr (pairs.drop n)) r) 0 = l 0 := setLoc_ne _ _ (by decide)
          have e2 : ∀ t, 2 ≤ t → setLoc l 1 ((withLoop calls).resume (.inr (pairs.drop n)) r) t = .inr [] := fun t ht => by
            rw [setLoc_ne _ _ (by omega)]; exact h4 t ht
          refine ⟨⟨n + 1, ?_, ?_⟩, ⟨y, e1.trans h3⟩, e2⟩
          · subst h1
            have hc' : (pairs.drop n).head? = some c := hc
            match n with
            | 0 => cases hc'; obtain ⟨_, rfl⟩ := hst; rfl
            | 1 => cases hc'; obtain ⟨_, rfl⟩ := hst; rfl
            | 2 => cases hc'; obtain ⟨_, rfl⟩ := hst; rfl
            | 3 => cases hc'; obtain ⟨_, rfl⟩ := hst; rfl
            | n + 4 => simp [pairs] at hc'
          · rw [setLoc_same]
            show Sum.inr (pairs.drop n).tail = _
            rw [List.tail_drop]
        | t + 2 =>
          rw [h4 (t + 2) (by omega)] at hc
          cases hc
  obtain ⟨⟨n, h1, _⟩, _⟩ := key _ h
  simp only at h1
  rw [h1]
  exact List.take_prefix _ _

/-- **C168, refuted.** The loop can find a mixture that was never in the map. -/
theorem C168_refuted : ¬ C168_full := by
  intro h
  obtain ⟨s, h1, h2⟩ := torn_run
  obtain ⟨s0, h3, h4⟩ := h Nat Nat _ natEq calls torn natEq_partial torn_outside s h1 0 _ h2
  obtain ⟨hist, h5, h6⟩ := C166_atomic natEq_partial h3
  have h7 := torn_maps h5
  rw [h6] at h4
  have h8 := List.prefix_iff_eq_take.1 h7
  have h9 := h7.length_le
  generalize hist.length = n at h8 h9
  subst h8
  match n, h9 with
  | 0, _ => exact absurd h4 (by decide)
  | 1, _ => exact absurd h4 (by decide)
  | 2, _ => exact absurd h4 (by decide)
  | 3, _ => exact absurd h4 (by decide)
  | 4, _ => exact absurd h4 (by decide)
  | n + 5, h9 => simp at h9

variable {K V Q : Type} [Inhabited V] {eq : K → K → Bool} {q : Client Q (Call K V) (Res K V)} {l : Nat → Loop K V ⊕ Q}

/-- A loop that is done is outside the map. -/
theorem idle_of_done {s : CSt _ (List (K × V)) _ _ (Loop K V ⊕ Q)} (h : CReach (syncmap eq) (withLoop q) l s) {t : Nat} {out : List (K × V)}
    (hd : s.loc t = .inl (.go [] out)) : s.obj.pc t = .idle := by
  have hc : (withLoop q).call (s.loc t) = none := by rw [hd]; rfl
  cases e : s.obj.pc t with
  | idle => rfl
  | want _ c => have := h.calls (t := t) (c := c) (by rw [e]; rfl); rw [hc] at this; cases this
  | body _ c _ => have := h.calls (t := t) (c := c) (by rw [e]; rfl); rw [hc] at this; cases this
  | held _ c _ => have := h.calls (t := t) (c := c) (by rw [e]; rfl); rw [hc] at this; cases this
  | out _ c _ => have := h.calls (t := t) (c := c) (by rw [e]; rfl); rw [hc] at this; cases this

/-- **C168, what holds.** The calls that changed the map are `hist`, so far. There is a moment, after `h0`, such that the loop found the keys that were
in the map then, and for each the value at a later moment (the zero value if it was gone), one after the other. -/
theorem C168_partial (pe : PartialEq eq) (hl : Outside l) {s : CSt _ (List (K × V)) _ _ (Loop K V ⊕ Q)} (h : CReach (syncmap eq) (withLoop q) l s) :
    ∃ hist, AReach (histObj eq) (withLoop q) l (hist, fun t => view (withLoop q) (s.loc t) (s.obj.pc t)) ∧ s.obj.m = run eq hist ∧
      ∀ t out, s.loc t = .inl (.go [] out) → ∃ h0 es, Entries eq h0 es ∧ out.map Prod.fst = es.map Prod.fst ∧ Moments eq h0 out hist := by
  obtain ⟨hist, h1, h2⟩ := C166_atomic pe h
  refine ⟨hist, h1, h2, fun t out ht => ?_⟩
  obtain ⟨h0, es, h3, h4, h5⟩ := inv_reach hl h1 t [] out (by simp only [idle_of_done h ht]; exact ht)
  exact ⟨h0, es, h3, by simpa using h4, h5⟩

/-- **C168, once.** The loop finds a key once, however the map changes. -/
theorem C168_once (pe : PartialEq eq) (hl : Outside l) {s : CSt _ (List (K × V)) _ _ (Loop K V ⊕ Q)} (h : CReach (syncmap eq) (withLoop q) l s)
    {t : Nat} {out : List (K × V)} (ht : s.loc t = .inl (.go [] out)) : (out.map Prod.fst).Pairwise (fun a b => eq a b = false) := by
  obtain ⟨hist, _, _, h3⟩ := C168_partial pe hl h
  obtain ⟨h0, es, h4, h5, _⟩ := h3 t out ht
  rw [h5, List.pairwise_map]
  exact entries_pairwise pe h4

/-- **C168, from the start of the loop.** The loop has not begun when the calls `h1` have brought the map to where it is; when it is done `since` have
come after them. What is stored under a key that `since` do not touch is found exactly: its value, once, if it is there, nothing if it is not. -/
theorem C168_kept (pe : PartialEq eq) {s1 s : CSt _ (List (K × V)) _ _ (Loop K V ⊕ Q)} (hr : CReach (syncmap eq) (withLoop q) l s1) {t : Nat}
    (h0 : s1.loc t = .inl .start) (hi : s1.obj.pc t = .idle) (hs : ReflTransGen (CStep (syncmap eq) (withLoop q)) s1 s) {out : List (K × V)}
    (ht : s.loc t = .inl (.go [] out)) {h1 : List (Op K V)} (hm : s1.obj.m = run eq h1) :
    ∃ since, s.obj.m = run eq (h1 ++ since) ∧
      ReflTransGen (fun a b => ∃ t, AStep (histObj eq) (withLoop q) t a b) (h1, fun t => view (withLoop q) (s1.loc t) (s1.obj.pc t))
        (h1 ++ since, fun t => view (withLoop q) (s.loc t) (s.obj.pc t)) ∧
      ∀ k, (∀ op ∈ since, ¬ Touches eq k op) → (out.filter (fun e => eq e.1 k)).map Prod.snd = (lookup eq h1 k).toList := by
  obtain ⟨hist, hm', has⟩ := C166_from pe hr hs hm
  have hsi : Since eq h1 t (hist, fun t => view (withLoop q) (s.loc t) (s.obj.pc t)) := by
    have key : ∀ x y, ReflTransGen (fun a b => ∃ t, AStep (histObj eq) (withLoop q) t a b) x y → Since eq h1 t x → Since eq h1 t y := by
      intro x y hxy
      induction hxy with
      | refl => exact id
      | tail _ st ih => obtain ⟨u, st⟩ := st; exact fun hx => since_step (ih hx) st
    exact key _ _ has (.inl ⟨by simp only [hi]; exact h0, List.prefix_rfl⟩)
  have hreach : CReach (syncmap eq) (withLoop q) l s := by
    clear hm' has hsi ht
    induction hs with
    | refl => exact hr
    | tail _ st ih => exact ih.step st
  have hv : view (withLoop q) (s.loc t) (s.obj.pc t) = .inl (.go [] out) := by rw [idle_of_done hreach ht]; exact ht
  obtain ⟨h0', es, ⟨r0, rfl⟩, h4, h5, h6⟩ : ∃ h0 es, h1 <+: h0 ∧ Entries eq h0 es ∧ out.map Prod.fst = es.map Prod.fst ∧ Moments eq h0 out hist := by
    rcases hsi with ⟨e, _⟩ | ⟨todo, out', e, h0, es, h2, h3, h4, h5⟩
    · simp only [hv] at e; cases e
    · simp only [hv] at e; cases e
      exact ⟨h0, es, h2, h3, by simpa using h4, h5⟩
  obtain ⟨since, rfl⟩ := h6.prefix
  rw [List.append_assoc] at hm' has
  refine ⟨r0 ++ since, hm', has, fun k hk' => ?_⟩
  rw [show lookup eq h1 k = lookup eq (h1 ++ r0) k from (lookup_kept fun op ho => hk' op (by simp [ho])).symm]
  have hk : ∀ op ∈ since, ¬ Touches eq k op := fun op ho => hk' op (by simp [ho])
  clear hk' hv
  generalize h1 ++ r0 = h0 at *
  have hv : ∀ e ∈ out, eq e.1 k = true → e.2 = (lookup eq h0 k).getD default := by
    intro e he hek
    obtain ⟨h', ⟨r1, rfl⟩, ⟨r2, hr⟩, h9⟩ := h6.each e he
    rw [List.append_assoc] at hr
    have hr' := List.append_cancel_left hr
    rw [h9, lookup_congr pe hek, lookup_kept fun op ho => hk op (by rw [← hr']; simp [ho])]
  have hlen : (out.filter (fun e => eq e.1 k)).length = (lookup eq h0 k).toList.length := by
    rw [← h4.1 k, List.length_map]
    have e1 : ∀ l : List (K × V), (l.filter (fun e => eq e.1 k)).length = ((l.map Prod.fst).filter (fun a => eq a k)).length := by
      intro l; rw [List.filter_map, List.length_map]; rfl
    rw [e1, e1, h5]
  have hall : ∀ e ∈ out.filter (fun e => eq e.1 k), e.2 = (lookup eq h0 k).getD default := fun e he =>
    hv e (List.mem_filter.1 he).1 (by simpa using (List.mem_filter.1 he).2)
  generalize out.filter (fun e => eq e.1 k) = f at hlen hall
  cases hlk : lookup eq h0 k with
  | none => rw [hlk] at hlen; simpa using hlen
  | some v =>
    rw [hlk] at hlen hall
    match f, hlen with
    | [e], _ => simpa using hall e (by simp)

/-- **C168, an end.** Finitely many loops and others that end by themselves come to an end, with every loop done. -/
theorem C168_ends (pe : PartialEq eq) {μ : Q → Nat} (hq : ∀ x c r, q.call x = some c → μ (q.resume x r) < μ x) {N : Nat}
    (hN : ∀ t, N ≤ t → (withLoop q).call (l t) = none) {s : CSt _ (List (K × V)) _ _ (Loop K V ⊕ Q)} (h : CReach (syncmap eq) (withLoop q) l s) :
    Acc (fun s' s => CStep (syncmap eq) (withLoop q) s s') s ∧
      ((¬ ∃ s', CStep (syncmap eq) (withLoop q) s s') → ∀ t, (∃ out, s.loc t = .inl (.go [] out)) ∨ ∃ x, s.loc t = .inr x ∧ q.call x = none) := by
  constructor
  · refine C166_ends pe hN (fun x hx => ?_) h
    have hout : ∀ t, N ≤ t → (withLoop q).call (x.2 t) = none := by
      induction hx with
      | start => exact hN
      | @step a b u _ st ih =>
        intro t ht
        cases st with
        | @mk m l c r m' hc hst =>
          by_cases e : t = u
          · subst e; rw [ih t ht] at hc; cases hc
          · simp only [setLoc_ne _ _ e]; exact ih t ht
    have hacc := acc_prod (R := fun _ => Next μ) N x.2 (fun t _ => next_acc μ _)
    clear hx h
    generalize hy : x.2 = y at hacc
    induction hacc generalizing x with
    | intro y _ ih =>
      subst hy
      refine ⟨_, fun b ⟨t, st⟩ => ?_⟩
      obtain ⟨h1, h2⟩ := next_step hq st
      have ht : t < N := by
        by_contra hc
        have h0 := hout t (by omega)
        cases st with
        | @mk m l c r m' hc _ => rw [h0] at hc; cases hc
      refine ih b.2 ⟨t, ht, h1, h2⟩ b (fun u hu => ?_) rfl
      rw [h2 u (by omega)]; exact hout u hu
  · intro hn t
    have hc := (C166_stuck h hn t).2
    generalize s.loc t = q0 at hc
    match q0 with
    | .inl .start => cases hc
    | .inl (.go [] o) => exact .inl ⟨o, rfl⟩
    | .inl (.go (k :: ks) o) => cases hc
    | .inr x => exact .inr ⟨x, rfl, hc⟩

/-! ## Cases -/

example : Outside torn ∧ (∀ t, 2 ≤ t → (withLoop calls).call (torn t) = none) ∧
    ∀ (x : List (Call Nat Nat)) c r, calls.call x = some c → (calls.resume x r).length < x.length := by
  refine ⟨torn_outside, fun t ht => ?_, fun x c r hc => ?_⟩
  · match t with
    | t + 2 => rfl
  · match x with
    | [] => cases hc
    | _ :: x => exact Nat.lt_succ_self _

/-- In `torn_run` the keys are found once, with the values of two moments. -/
example : ∃ s, CReach (syncmap natEq) (withLoop calls) torn s ∧ s.loc 0 = .inl (.go [] [(1, 1), (2, 2)]) ∧
    Moments natEq [.set 1 1, .set 2 1] [(1, 1), (2, 2)] [Op.set 1 1, .set 2 1, .set 1 2, .set 2 2] := by
  obtain ⟨s, h1, h2⟩ := torn_run
  exact ⟨s, h1, h2, [.set 1 1, .set 2 1], ⟨[], rfl⟩, rfl, [.set 1 1, .set 2 1, .set 1 2, .set 2 2], ⟨[.set 1 2, .set 2 2], rfl⟩, rfl, ⟨[], rfl⟩⟩

/-- From the start, where the map is empty: the loop of `torn_run` finds nothing under 3, which nobody touches. -/
example : ∃ s1 s out, CReach (syncmap natEq) (withLoop calls) torn s1 ∧ s1.loc 0 = .inl .start ∧ s1.obj.pc 0 = .idle ∧ s1.obj.m = run natEq [] ∧
    ReflTransGen (CStep (syncmap natEq) (withLoop calls)) s1 s ∧ s.loc 0 = .inl (.go [] out) ∧ out = [(1, 1), (2, 2)] := by
  obtain ⟨s, h1, h2⟩ := torn_run
  have hp : ReflTransGen (CStep (syncmap natEq) (withLoop calls)) ⟨RW.start (syncmap natEq), torn⟩ s := by
    clear h2
    induction h1 with
    | start => exact .refl
    | step _ st ih => exact ih.tail st
  exact ⟨_, s, _, .start, rfl, rfl, rfl, hp, h2, rfl⟩

/-- A key that the others leave alone. -/
example : ∀ op ∈ [Op.set 1 1, .delete 2], ¬ Touches natEq (3 : Nat) (op : Op Nat Nat) := by
  intro op ho
  simp at ho
  rcases ho with rfl | rfl <;> simp [Touches]

end Verif.MapLoop
