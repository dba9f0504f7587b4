import Verif.MapLoop.Spec
import Verif.MapProg.Props
/-!
# The loop, call by call
-/
namespace Verif.MapLoop
open Verif.Conc Verif.Conc.RW Verif.SyncMap Verif.SyncAny Verif.SyncKey

variable {K V Q : Type} [Inhabited V] {eq : K → K → Bool}

theorem Moments.prefix {h hist : List (Op K V)} : ∀ {out : List (K × V)}, Moments eq h out hist → h <+: hist
  | [], hm => hm
  | _ :: _, ⟨_, h1, _, h2⟩ => h1.trans h2.prefix

theorem Moments.mono {h hist hist' : List (Op K V)} (hp : hist <+: hist') : ∀ {out : List (K × V)}, Moments eq h out hist → Moments eq h out hist'
  | [], hm => List.IsPrefix.trans hm hp
  | _ :: _, ⟨h1, h2, h3, h4⟩ => ⟨h1, h2, h3, h4.mono hp⟩

theorem Moments.snoc {h hist : List (Op K V)} (k : K) : ∀ {out : List (K × V)}, Moments eq h out hist →
    Moments eq h (out ++ [(k, (lookup eq hist k).getD default)]) hist
  | [], hm => ⟨hist, hm, rfl, List.prefix_rfl⟩
  | _ :: _, ⟨h1, h2, h3, h4⟩ => ⟨h1, h2, h3, h4.snoc k⟩

/-- Each entry was found at a moment between. -/
theorem Moments.each {h hist : List (Op K V)} : ∀ {out : List (K × V)}, Moments eq h out hist → ∀ e ∈ out,
    ∃ h', h <+: h' ∧ h' <+: hist ∧ e.2 = (lookup eq h' e.1).getD default
  | [], _, _, he => by cases he
  | x :: out, ⟨h1, h2, h3, h4⟩, e, he => by
    rcases List.mem_cons.1 he with rfl | he
    · exact ⟨h1, h2, h4.prefix, h3⟩
    · obtain ⟨h', h5, h6, h7⟩ := h4.each e he
      exact ⟨h', h2.trans h5, h6, h7⟩

/-- A call extends the history. -/
theorem histStep_prefix {h h' : List (Op K V)} {c : Call K V} {r : Res K V} (st : histStep eq h c r h') : h <+: h' := by
  cases c <;> obtain ⟨_, rfl⟩ := st <;> first | exact List.prefix_rfl | exact List.prefix_append _ _

/-- Inside the loop: the keys were those of one moment, the entries found since. -/
def Inv (eq : K → K → Bool) (a : List (Op K V) × (Nat → Loop K V ⊕ Q)) : Prop := ∀ t todo out, a.2 t = .inl (.go todo out) →
  ∃ h0 es, Entries eq h0 es ∧ out.map Prod.fst ++ todo = es.map Prod.fst ∧ Moments eq h0 out a.1

theorem inv_step {q : Client Q (Call K V) (Res K V)} {t : Nat} {a b : List (Op K V) × (Nat → Loop K V ⊕ Q)} (h : Inv eq a)
    (st : AStep (histObj eq) (withLoop q) t a b) : Inv eq b := by
  cases st with
  | @mk m l c r m' hc hst =>
    have hp : m <+: m' := histStep_prefix hst
    intro u todo out hu
    by_cases e : u = t
    · subst e
      simp only [setLoc_same] at hu
      generalize hl : l u = q0 at hu hc
      match q0 with
      | .inl .start =>
        cases hc
        obtain ⟨⟨es, he, rfl⟩, rfl⟩ := hst
        cases hu
        exact ⟨m', es, he, rfl, List.prefix_rfl⟩
      | .inl (.go [] o) => cases hc
      | .inl (.go (k :: ks) o) =>
        cases hc
        obtain ⟨rfl, rfl⟩ := hst
        cases hu
        obtain ⟨h0, es, h1, h2, h3⟩ := h u (k :: todo) o hl
        exact ⟨h0, es, h1, by rw [← h2]; simp, h3.snoc k⟩
      | .inr x => cases hu
    · simp only [setLoc_ne _ _ e] at hu
      obtain ⟨h0, es, h1, h2, h3⟩ := h u todo out hu
      exact ⟨h0, es, h1, h2, h3.mono hp⟩

theorem inv_reach {q : Client Q (Call K V) (Res K V)} {l : Nat → Loop K V ⊕ Q} (hl : Outside l) {a : List (Op K V) × (Nat → Loop K V ⊕ Q)}
    (h : AReach (histObj eq) (withLoop q) l a) : Inv eq a := by
  induction h with
  | start => exact fun t todo out e => absurd e (hl t todo out)
  | step _ st ih => exact inv_step ih st

/-- The same of goroutine `t` alone, with the moment of `Keys` not before `h1`. -/
def Since (eq : K → K → Bool) (h1 : List (Op K V)) (t : Nat) (a : List (Op K V) × (Nat → Loop K V ⊕ Q)) : Prop :=
  (a.2 t = .inl .start ∧ h1 <+: a.1) ∨ ∃ todo out, a.2 t = .inl (.go todo out) ∧
    ∃ h0 es, h1 <+: h0 ∧ Entries eq h0 es ∧ out.map Prod.fst ++ todo = es.map Prod.fst ∧ Moments eq h0 out a.1

theorem since_step {q : Client Q (Call K V) (Res K V)} {h1 : List (Op K V)} {t u : Nat} {a b : List (Op K V) × (Nat → Loop K V ⊕ Q)}
    (h : Since eq h1 t a) (st : AStep (histObj eq) (withLoop q) u a b) : Since eq h1 t b := by
  cases st with
  | @mk m l c r m' hc hst =>
    have hp : m <+: m' := histStep_prefix hst
    by_cases e : t = u
    · subst e
      rcases h with ⟨hl, hm⟩ | ⟨todo, out, hl, h0, es, h2, h3, h4, h5⟩
      · simp only at hl hm
        rw [hl] at hc
        cases hc
        obtain ⟨⟨es, he, rfl⟩, rfl⟩ := hst
        exact .inr ⟨_, [], by simp only [setLoc_same, hl]; rfl, m', es, hm, he, rfl, List.prefix_rfl⟩
      · simp only at hl h5
        rw [hl] at hc
        match todo with
        | [] => cases hc
        | k :: ks =>
          cases hc
          obtain ⟨rfl, rfl⟩ := hst
          exact .inr ⟨ks, _, by simp only [setLoc_same, hl]; rfl, h0, es, h2, h3, by rw [← h4]; simp, h5.snoc k⟩
    · rcases h with ⟨hl, hm⟩ | ⟨todo, out, hl, h0, es, h2, h3, h4, h5⟩
      · exact .inl ⟨by simp only [setLoc_ne _ _ e]; exact hl, hm.trans hp⟩
      · exact .inr ⟨todo, out, by simp only [setLoc_ne _ _ e]; exact hl, h0, es, h2, h3, h4, h5.mono hp⟩

omit [Inhabited V] in
/-- A key is listed once. -/
theorem entries_pairwise (pe : PartialEq eq) {h : List (Op K V)} {es : List (K × V)} (he : Entries eq h es) :
    es.Pairwise (fun a b => eq a.1 b.1 = false) := by
  have key : ∀ es : List (K × V), (∀ k, (es.filter (fun e => eq e.1 k)).length ≤ 1) → es.Pairwise (fun a b => eq a.1 b.1 = false) := by
    intro es
    induction es with
    | nil => exact fun _ => .nil
    | cons x es ih =>
      intro hk
      refine .cons (fun b hb => ?_) (ih fun k => ?_)
      · by_contra hne
        have e1 : eq x.1 b.1 = true := by simpa using hne
        have e2 : eq b.1 b.1 = true := pe.trans (pe.symm e1) e1
        have := hk b.1
        rw [List.filter_cons_of_pos (by simpa using e1)] at this
        have hm : b ∈ es.filter (fun e => eq e.1 b.1) := List.mem_filter.2 ⟨hb, e2⟩
        have := List.length_pos_of_mem hm
        simp only [List.length_cons] at *
        omega
      · have := hk k
        rw [List.filter_cons] at this
        split at this
        · simp only [List.length_cons] at this; omega
        · exact this
  refine key es fun k => ?_
  have := congrArg List.length (he.1 k)
  rw [List.length_map] at this
  rw [this]
  cases lookup eq h k <;> simp

omit [Inhabited V] in
/-- Calls that do not touch a key leave its entry. -/
theorem lookup_kept {h : List (Op K V)} {k : K} : ∀ {r : List (Op K V)}, (∀ op ∈ r, ¬ Touches eq k op) → lookup eq (h ++ r) k = lookup eq h k := by
  intro r hr
  unfold lookup
  rw [List.foldl_append]
  generalize h.foldl _ none = x
  induction r generalizing x with
  | nil => rfl
  | cons op r ih =>
    rw [List.foldl_cons]
    have h0 := hr op (by simp)
    rw [ih (fun o ho => hr o (by simp [ho]))]
    cases op with
    | set k' v => simp only [Touches] at h0; simp [h0]
    | delete k' => simp only [Touches] at h0; simp [h0]
    | clear => exact absurd trivial h0

omit [Inhabited V] in
theorem lookup_congr (pe : PartialEq eq) {a b : K} (e : eq a b = true) (h : List (Op K V)) : lookup eq h a = lookup eq h b := by
  have hc : ∀ k', eq a k' = eq b k' := fun k' => by
    rw [Bool.eq_iff_iff]; exact ⟨fun h1 => pe.trans (pe.symm e) h1, fun h1 => pe.trans e h1⟩
  simp only [lookup, hc]

/-- A measure of the others, and the loops. -/
def Next (μ : Q → Nat) : Loop K V ⊕ Q → Loop K V ⊕ Q → Prop
  | .inr a, .inr b => μ a < μ b
  | .inl (.go a _), .inl (.go b _) => a.length < b.length
  | .inl (.go _ _), .inl .start => True
  | _, _ => False

omit [Inhabited V] in
theorem next_acc (μ : Q → Nat) (x : Loop K V ⊕ Q) : Acc (Next (V := V) (K := K) μ) x := by
  have hr : ∀ n (x : Q), μ x < n → Acc (Next (V := V) (K := K) μ) (.inr x) := by
    intro n
    induction n with
    | zero => intro x hx; omega
    | succ n ih =>
      intro x hx
      refine ⟨_, fun y hy => ?_⟩
      match y with
      | .inr a => exact ih a (by simp only [Next] at hy; omega)
      | .inl (.go _ _) => exact hy.elim
      | .inl .start => exact hy.elim
  have hg : ∀ n (todo : List K) (out : List (K × V)), todo.length < n → Acc (Next (Q := Q) μ) (.inl (.go todo out)) := by
    intro n
    induction n with
    | zero => intro _ _ hx; omega
    | succ n ih =>
      intro todo out hx
      refine ⟨_, fun y hy => ?_⟩
      match y with
      | .inr a => exact hy.elim
      | .inl (.go a o) => exact ih a o (by simp only [Next] at hy; omega)
      | .inl .start => exact hy.elim
  match x with
  | .inr a => exact hr _ a (Nat.lt_succ_self _)
  | .inl (.go a o) => exact hg _ a o (Nat.lt_succ_self _)
  | .inl .start =>
    refine ⟨_, fun y hy => ?_⟩
    match y with
    | .inr a => exact hy.elim
    | .inl (.go a o) => exact hg _ a o (Nat.lt_succ_self _)
    | .inl .start => exact hy.elim

theorem next_step {q : Client Q (Call K V) (Res K V)} {μ : Q → Nat} (hq : ∀ x c r, q.call x = some c → μ (q.resume x r) < μ x) {t : Nat}
    {a b : List (Op K V) × (Nat → Loop K V ⊕ Q)} (st : AStep (histObj eq) (withLoop q) t a b) :
    Next μ (b.2 t) (a.2 t) ∧ ∀ u, u ≠ t → b.2 u = a.2 u := by
  cases st with
  | @mk m l c r m' hc hst =>
    refine ⟨?_, fun u hu => setLoc_ne _ _ hu⟩
    simp only [setLoc_same]
    generalize l t = q0 at hc ⊢
    match q0 with
    | .inl .start =>
      cases hc
      obtain ⟨⟨es, he, rfl⟩, rfl⟩ := hst
      trivial
    | .inl (.go [] o) => cases hc
    | .inl (.go (k :: ks) o) =>
      cases hc
      obtain ⟨rfl, rfl⟩ := hst
      show ks.length < (k :: ks).length
      simp
    | .inr x => exact hq x c r hc

end Verif.MapLoop
