import Verif.LazyAll.Lemmas
import Verif.Conc.Prod
/-!
# At most one panic; the goroutines come to an end
-/
namespace Verif.LazyAll
open LazyPanic (Prog Act Value ValueFrom NoPanic)

variable {V : Type} {P : Prog V} {prog : Nat → List (Option V) → Option Nat}

/-! ## Panics -/

/-- A `Get` of `i` on its way to panic. -/
def tok (i : Nat) : Fr V → Bool
  | .setDone k true => k = i
  | .unlock k true => k = i
  | .fail k => k = i
  | _ => false

/-- `Get` calls of `i` that have panicked. -/
def panicked (s : St V) (i : Nat) : Nat := s.log.countP (fun p => p.1 == i && p.2.isNone)

def outOf (i : Nat) : Eff V → Nat
  | .out k none => if k = i then 1 else 0
  | _ => 0

theorem panicked_eff (s : St V) (t : Nat) (e : Eff V) (i : Nat) (l : List (Fr V)) :
    panicked { s.eff t e with thr := upd s.thr t l } i = panicked s i + outOf i e := by
  cases e <;> try rfl
  case out k r =>
    show (s.log ++ [(k, r)]).countP _ = _
    rw [List.countP_append]
    cases r <;> simp [panicked, outOf, List.countP_cons]

theorem give_tok (k : Nat) (r : Option V) (l : List (Fr V)) : (give P r l).countP (tok k) = l.countP (tok k) ∨
    ((give P r l).countP (tok k) = l.countP (tok k) + 1 ∧ (∃ got, .build k got ∈ l) ∧ .setDone k true ∈ give P r l) := by
  unfold give
  split
  · simp [tok]
  · rename_i i got l
    split
    · by_cases h : i = k
      · right; subst h; refine ⟨by simp [tok, List.countP_cons], ⟨got, List.mem_cons_self⟩, List.mem_cons_self⟩
      · left; simp [tok, List.countP_cons, h]
    · left; simp [tok]
  · exact .inl rfl

theorem mv_tok {main : List (Option V) → Option Nat} {s : St V} {l l' : List (Fr V)} {e : Eff V} (m : Mv P main s l e l') (k : Nat) :
    l'.countP (tok k) + outOf k e = l.countP (tok k) ∨
    (l'.countP (tok k) + outOf k e = l.countP (tok k) + 1 ∧ (∃ got, .build k got ∈ l) ∧ .setDone k true ∈ l') := by
  cases m
  case read i l =>
    rcases give_tok (P := P) k (some (s.value i)) l with h | ⟨h1, ⟨got, h2⟩, h3⟩
    · left; simp [tok, outOf, h]
    · right; exact ⟨by simp [tok, outOf, h1], ⟨got, List.mem_cons_of_mem _ h2⟩, h3⟩
  case fail i l =>
    rcases give_tok (P := P) k none l with h | ⟨h1, ⟨got, h2⟩, h3⟩
    · left; simp [tok, outOf, h, List.countP_cons]
    · right; exact ⟨by simp [tok, outOf, h1, List.countP_cons]; omega, ⟨got, List.mem_cons_of_mem _ h2⟩, h3⟩
  case panics i got l _ =>
    by_cases h : i = k
    · right; subst h; exact ⟨by simp [tok, outOf, List.countP_cons], ⟨got, List.mem_cons_self⟩, List.mem_cons_self⟩
    · left; simp [tok, outOf, List.countP_cons, h]
  case setDone i p l => left; cases p <;> simp [tok, outOf, List.countP_cons]
  all_goals (left; simp [tok, outOf, List.countP_cons])

theorem two_holds {i : Nat} {f g : Fr V} {l : List (Fr V)} (hf : f ∈ l) (hg : g ∈ l) (hne : f ≠ g) (h1 : holds i f = true) (h2 : holds i g = true) :
    2 ≤ l.countP (holds i) := by
  induction l with
  | nil => cases hf
  | cons x l ih =>
    rw [List.countP_cons]
    rcases List.mem_cons.1 hf with rfl | hfl
    · rcases List.mem_cons.1 hg with rfl | hg
      · exact absurd rfl hne
      · have : 0 < l.countP (holds i) := List.countP_pos_iff.2 ⟨g, hg, h2⟩
        rw [if_pos h1]; omega
    · rcases List.mem_cons.1 hg with rfl | hg
      · have : 0 < l.countP (holds i) := List.countP_pos_iff.2 ⟨f, hfl, h1⟩
        rw [if_pos h2]; omega
      · have := ih hfl hg; omega

theorem give_build (r : Option V) {k : Nat} {got : List (Option V)} {l : List (Fr V)} (h : .build k got ∈ give P r l) :
    ∃ got', .build k got' ∈ l := by
  unfold give at h
  split at h
  · rcases List.mem_cons.1 h with h | h
    · cases h
    · exact ⟨got, List.mem_cons_of_mem _ h⟩
  · split at h
    · rcases List.mem_cons.1 h with h | h
      · cases h
      · exact ⟨got, List.mem_cons_of_mem _ h⟩
    · rcases List.mem_cons.1 h with h | h
      · cases h; exact ⟨_, List.mem_cons_self⟩
      · exact ⟨got, List.mem_cons_of_mem _ h⟩
  · exact ⟨got, h⟩

theorem mv_build {main : List (Option V) → Option Nat} {s : St V} {l l' : List (Fr V)} {e : Eff V} (m : Mv P main s l e l') {k : Nat}
    {got : List (Option V)} (h : .build k got ∈ l') : (∃ got', .build k got' ∈ l) ∨ e = .run k := by
  cases m
  case read => obtain ⟨g, hg⟩ := give_build _ h; exact .inl ⟨g, List.mem_cons_of_mem _ hg⟩
  case fail => obtain ⟨g, hg⟩ := give_build _ h; exact .inl ⟨g, List.mem_cons_of_mem _ hg⟩
  case call => rcases List.mem_cons.1 h with h | h
               · cases h
               · exact .inl ⟨_, h⟩
  case need => rcases List.mem_cons.1 h with h | h
               · cases h
               · exact .inl ⟨_, h⟩
  case checkUnset => rcases List.mem_cons.1 h with h | h
                     · cases h; exact .inr rfl
                     · exact .inl ⟨_, List.mem_cons_of_mem _ h⟩
  all_goals (rcases List.mem_cons.1 h with h | h; · cases h
             exact .inl ⟨_, List.mem_cons_of_mem _ h⟩)

/-- Only the goroutine that ran the constructor of `i` panics in `Get` of `i`, once. -/
structure Once (s : St V) : Prop where
  who : ∀ t i, 0 < (s.thr t).countP (tok i) → s.runs i = [t]
  one : ∀ t i, (s.thr t).countP (tok i) + panicked s i ≤ 1
  build : ∀ t i got, .build i got ∈ s.thr t → s.runs i = [t] ∧ (s.thr t).countP (tok i) = 0 ∧ panicked s i = 0
  none : ∀ i, s.runs i = [] → panicked s i = 0

theorem once_step {t : Nat} {s s' : St V} (hl : Locks s) (hv : Inv P prog (fun _ _ => True) (fun _ _ => True) (fun _ _ => True) s) (hi : Once s)
    (hs : Step P prog t s s') : Once s' := by
  have hl' := locks_step hl hs
  cases hs with
  | @mk e l m =>
  have hruns : ∀ i, e ≠ .run i → (s.eff t e).runs i = s.runs i := by
    intro i h
    cases e <;> try rfl
    case run k => exact upd_ne _ _ (fun he => h (by rw [he]))
  have hrun : ∀ i, e = .run i → s.runs i = [] ∧ (s.eff t e).runs i = [t] := by
    intro i he
    subst he
    obtain ⟨r, h1, h2, h3⟩ := mv_run m
    have : s.runs i = [] := by
      apply Classical.byContradiction
      intro hn
      obtain ⟨u, f, hf, h⟩ := hv.busy i h3 hn
      rw [check_alone hl h1 u f hf] at h; cases h
    refine ⟨this, ?_⟩
    show upd s.runs i _ i = [t]
    rw [upd_same, this]; rfl
  have keep : ∀ i u, s.runs i = [u] → (s.eff t e).runs i = [u] := by
    intro i u h
    rw [hruns i (fun he => by rw [(hrun i he).1] at h; cases h)]; exact h
  have hout : ∀ i, outOf i e = 0 ∨ (outOf i e = 1 ∧ 0 < (s.thr t).countP (tok i)) := by
    intro i
    generalize s.thr t = q at m
    cases m <;> try exact .inl rfl
    case fail k l =>
      by_cases h : k = i
      · right; simp [h, tok, outOf, List.countP_cons]
      · left; simp [h, outOf]
  refine ⟨?_, ?_, ?_, ?_⟩
  · intro u i h
    replace h : 0 < (upd s.thr t l u).countP (tok i) := h
    show (s.eff t e).runs i = [u]
    by_cases e1 : u = t
    · subst e1
      rw [upd_same] at h
      rcases mv_tok m i with h1 | ⟨_, ⟨got, h2⟩, _⟩
      · exact keep i u (hi.who u i (by omega))
      · exact keep i u (hi.build u i got h2).1
    · rw [upd_ne _ _ e1] at h
      exact keep i u (hi.who u i h)
  · intro u i
    rw [panicked_eff]
    show (upd s.thr t l u).countP (tok i) + _ ≤ 1
    have ht := hi.one t i
    by_cases e1 : u = t
    · subst e1
      rw [upd_same]
      rcases mv_tok m i with h1 | ⟨h1, ⟨got, h2⟩, _⟩
      · omega
      · obtain ⟨_, h3, h4⟩ := hi.build u i got h2
        omega
    · rw [upd_ne _ _ e1]
      have hu := hi.one u i
      rcases hout i with h | ⟨h, h1⟩
      · omega
      · have h2 := hi.who t i h1
        have h3 : ¬ 0 < (s.thr u).countP (tok i) := by
          intro h3
          rw [hi.who u i h3] at h2
          cases h2; exact e1 rfl
        omega
  · intro u i got h
    rw [panicked_eff]
    replace h : Fr.build i got ∈ upd s.thr t l u := h
    show (s.eff t e).runs i = [u] ∧ (upd s.thr t l u).countP (tok i) = 0 ∧ _
    by_cases e1 : u = t
    · subst e1
      rw [upd_same] at h ⊢
      have hnew : ¬ Fr.setDone i true ∈ l := by
        intro h'
        have h2 := two_holds (i := i) h h' (by simp) (by simp [holds]) (by simp [holds])
        have h3 := hl' u i
        replace h3 : (upd s.thr u l u).countP (holds i) = _ := h3
        rw [upd_same] at h3
        split at h3 <;> omega
      rcases mv_tok m i with h1 | ⟨_, _, h1⟩
      · rcases mv_build m h with ⟨got', h2⟩ | h2
        · obtain ⟨h3, h4, h5⟩ := hi.build u i got' h2
          exact ⟨keep i u h3, by omega, by omega⟩
        · obtain ⟨h3, h4⟩ := hrun i h2
          have h5 : ¬ 0 < (s.thr u).countP (tok i) := by
            intro h5
            rw [hi.who u i h5] at h3; cases h3
          have := hi.none i h3
          exact ⟨h4, by omega, by omega⟩
      · exact absurd h1 hnew
    · rw [upd_ne _ _ e1] at h ⊢
      obtain ⟨h3, h4, h5⟩ := hi.build u i got h
      refine ⟨keep i u h3, h4, ?_⟩
      rcases hout i with h6 | ⟨_, h6⟩
      · omega
      · rw [hi.who t i h6] at h3
        cases h3; exact absurd rfl e1
  · intro i h
    replace h : (s.eff t e).runs i = [] := h
    rw [panicked_eff]
    by_cases he : e = .run i
    · rw [(hrun i he).2] at h; cases h
    · rw [hruns i he] at h
      rcases hout i with h6 | ⟨_, h6⟩
      · rw [hi.none i h, h6]
      · rw [hi.who t i h6] at h; cases h

theorem once_reach {s : St V} (h : Reach P prog s) : Once s := by
  induction h with
  | start => refine ⟨?_, ?_, ?_, ?_⟩ <;> intros <;> simp_all [start, tok, panicked]
  | step hr hs ih => exact once_step (locks_reach hr) (inv_reach closed_true hr) ih hs

/-! ## Nobody waits forever -/

/-- The constructor of `i`, at `got`, may come to have got `ext` more. -/
inductive Path (P : Prog V) (i : Nat) : List (Option V) → List (Option V) → Prop
  | nil {got} : Path P i got []
  | some {got j g v ext} : P.ctor i got = .get j g → Path P i (got ++ [some v]) ext → Path P i got (some v :: ext)
  | none {got j ext} : P.ctor i got = .get j true → Path P i (got ++ [none]) ext → Path P i got (none :: ext)

theorem Path.snoc {i : Nat} {got ext : List (Option V)} (h : Path P i got ext) {j : Nat} {g : Bool} {r : Option V}
    (hc : P.ctor i (got ++ ext) = .get j g) (hr : r = Option.none → g = true) : Path P i got (ext ++ [r]) := by
  induction h with
  | nil =>
    rw [List.append_nil] at hc
    cases r with
    | some v => exact .some hc .nil
    | none => rw [hr rfl] at hc; exact .none hc .nil
  | some h1 h2 ih => exact .some h1 (ih (by rw [List.append_assoc]; exact hc))
  | none h1 h2 ih => exact .none h1 (ih (by rw [List.append_assoc]; exact hc))

/-- What the constructor of `i` needs, what the constructors of those need, and so on: this comes to an end. -/
inductive Low (P : Prog V) : Nat → Prop
  | mk {i} : (∀ got j g, Path P i [] got → P.ctor i got = .get j g → Low P j) → Low P i

theorem low_of_ends {i : Nat} {got : List (Option V)} (h : Ends P i got) :
    ∀ ext, Path P i got ext → ∀ j g, P.ctor i (got ++ ext) = .get j g → Low P j := by
  induction h with
  | ret hc =>
    intro ext hp j g hj
    cases hp with
    | nil => rw [List.append_nil, hc] at hj; cases hj
    | some h _ => rw [hc] at h; cases h
    | none h _ => rw [hc] at h; cases h
  | panic hc =>
    intro ext hp j g hj
    cases hp with
    | nil => rw [List.append_nil, hc] at hj; cases hj
    | some h _ => rw [hc] at h; cases h
    | none h _ => rw [hc] at h; cases h
  | @get i got j0 g0 hc he hs hn ih1 ih2 ih3 =>
    intro ext hp j g hj
    cases hp with
    | nil =>
      rw [List.append_nil, hc] at hj
      cases hj
      exact .mk (fun got j g hp hj => ih1 got hp j g (by rw [List.nil_append]; exact hj))
    | @some _ _ _ v ext h h' => exact ih2 v ext h' j g (by rw [List.append_assoc]; exact hj)
    | none h h' =>
      rw [hc] at h
      cases h
      exact ih3 rfl _ h' j g (by rw [List.append_assoc]; exact hj)

theorem ends_low {i : Nat} (h : Ends P i []) : Low P i :=
  .mk (fun got j g hp hj => low_of_ends h got hp j g (by rw [List.nil_append]; exact hj))

theorem closed_ends (hm : ∀ t, MainEnds P (prog t) []) :
    Closed P prog (fun _ _ => True) (fun i got => Low P i ∧ Path P i [] got) (fun t got => MainEnds P (prog t) got) := by
  constructor
  · exact hm
  · intro t got i h hi
    cases h with
    | stop h => rw [h] at hi; cases hi
    | get h he _ => rw [h] at hi; cases hi; exact ⟨ends_low he, .nil⟩
  · intro t got i r h hi _
    cases h with
    | stop h => rw [h] at hi; cases hi
    | get h _ hr => exact hr r
  · intro k got j g h hc
    cases h.1 with
    | mk hl => exact ⟨hl got j g h.2 hc, .nil⟩
  · intro k got j g v h hc _
    exact ⟨h.1, h.2.snoc hc (fun h => by cases h)⟩
  · intro k got j h hc _
    exact ⟨h.1, h.2.snoc hc (fun _ => rfl)⟩
  all_goals (intros; simp)

/-- The lazies in whose constructors a goroutine is that waits for the mutex of `j`. -/
theorem stuck_mem {main : List (Option V) → Option Nat} {B : Nat → List (Option V) → Prop} {M : List (Option V) → Prop} {i : Nat} :
    ∀ {l : List (Fr V)} {j : Nat}, ok P main B M (some j) l → ∀ f ∈ l, holds i f = true →
      ∃ got, f = .build i got ∧ B i got ∧ ∃ k g, P.ctor i got = .get k g ∧ (k = j ∨ ∃ f' ∈ l, holds k f' = true)
  | [], _, h, _, _, _ => h.elim
  | f0 :: l, j, h, f, hf, ho => by
    cases f0 with
    | main got =>
      rcases List.mem_cons.1 hf with rfl | hf
      · cases ho
      · rw [h.1] at hf; cases hf
    | build k got =>
      obtain ⟨⟨hb, hg⟩, h2⟩ := h
      obtain ⟨g, hg⟩ := hg j rfl
      rcases List.mem_cons.1 hf with rfl | hf
      · simp only [holds, decide_eq_true_eq] at ho
        subst ho
        exact ⟨got, rfl, hb, j, g, hg, .inl rfl⟩
      · obtain ⟨got', h3, h4, k', g', h5, h6⟩ := stuck_mem h2 f hf ho
        refine ⟨got', h3, h4, k', g', h5, .inr ?_⟩
        rcases h6 with rfl | ⟨f', hf', hh⟩
        · exact ⟨_, List.mem_cons_self, by simp [holds]⟩
        · exact ⟨f', List.mem_cons_of_mem _ hf', hh⟩
    | _ => exact absurd h.1 (by simp)

/-- Where a goroutine is that cannot step. -/
theorem stuck {M : Nat → List (Option V) → Prop} {B : Nat → List (Option V) → Prop} {s : St V} {t : Nat}
    (h : ok P (prog t) B (M t) none (s.thr t)) (hn : ∀ s', ¬ Step P prog t s s') :
    Finished prog s t ∨ ∃ i l u, s.thr t = .lock i :: l ∧ ok P (prog t) B (M t) (some i) l ∧ s.mu i = some u := by
  have no : ∀ e l, ¬ Mv P (prog t) s (s.thr t) e l := fun e l m => hn _ (.mk m)
  generalize hq : s.thr t = q at h no
  cases q with
  | nil => exact h.elim
  | cons f l =>
    cases f with
    | main got =>
      cases hm : prog t got with
      | none => exact .inl ⟨got, by rw [hq, h.1], hm⟩
      | some i => exact absurd (Mv.call hm) (no _ _)
    | load i =>
      cases hd : s.done i with
      | false => exact absurd (Mv.loadUnset hd) (no _ _)
      | true => exact absurd (Mv.loadSet hd) (no _ _)
    | lock i =>
      cases hd : s.mu i with
      | none => exact absurd (Mv.lock hd) (no _ _)
      | some u => exact .inr ⟨i, l, u, rfl, h.2, hd⟩
    | check i =>
      cases hd : s.done i with
      | false => exact absurd (Mv.checkUnset hd) (no _ _)
      | true => exact absurd (Mv.checkSet hd) (no _ _)
    | build i got =>
      cases hc : P.ctor i got with
      | get j g => exact absurd (Mv.need hc) (no _ _)
      | ret v => exact absurd (Mv.built hc) (no _ _)
      | panic => exact absurd (Mv.panics hc) (no _ _)
    | write i v => exact absurd Mv.write (no _ _)
    | setDone i p => exact absurd Mv.setDone (no _ _)
    | unlock i p =>
      cases p with
      | false => exact absurd Mv.unlock (no _ _)
      | true => exact absurd Mv.unlockPanic (no _ _)
    | read i => exact absurd Mv.read (no _ _)
    | fail i => exact absurd Mv.fail (no _ _)

theorem not_stuck (hm : ∀ t, MainEnds P (prog t) []) {s : St V} (h : Reach P prog s) (hn : ∀ t s', ¬ Step P prog t s s') (t : Nat) :
    Finished prog s t := by
  have hi := inv_reach (closed_ends hm) h
  have hl := locks_reach h
  have key : ∀ i, Low P i → ∀ u, s.mu i = some u → False := by
    intro i hlow
    induction hlow with
    | @mk i _ ih =>
      intro u hu
      have hc := hl u i
      rw [if_pos hu] at hc
      obtain ⟨f, hf, ho⟩ := List.countP_pos_iff.1 (by omega : 0 < (s.thr u).countP (holds i))
      rcases stuck (M := fun t got => MainEnds P (prog t) got) (hi.stk u) (hn u) with ⟨got, h1, _⟩ | ⟨j, l, w, h1, h2, h3⟩
      · rw [h1] at hf
        cases List.mem_singleton.1 hf
        cases ho
      · rw [h1] at hf
        rcases List.mem_cons.1 hf with rfl | hf
        · cases ho
        · obtain ⟨got, rfl, hb, k, g, hk, hor⟩ := stuck_mem h2 f hf ho
          rcases hor with rfl | ⟨f', hf', hh⟩
          · exact ih got k g hb.2 hk w h3
          · exact ih got k g hb.2 hk u (held_of_mem hl (t := u) (f := f') (by rw [h1]; exact List.mem_cons_of_mem _ hf') hh)
  rcases stuck (M := fun t got => MainEnds P (prog t) got) (hi.stk t) (hn t) with h1 | ⟨j, l, w, h1, h2, h3⟩
  · exact h1
  · exact (key j (ok_first (closed_ends hm) h2).1 w h3).elim

/-! ## Executions are finite -/

/-- One step of a goroutine's stack, whatever the lazies are. -/
def Next (P : Prog V) (main : List (Option V) → Option Nat) (l' l : List (Fr V)) : Prop := ∃ s e, Mv P main s l e l'

section
variable {main : List (Option V) → Option Nat}

theorem acc_read {i : Nat} {l : List (Fr V)} (h : ∀ r, Acc (Next P main) (give P r l)) : Acc (Next P main) (.read i :: l) := by
  refine ⟨_, ?_⟩; rintro l' ⟨s, e, m⟩; cases m; exact h _

theorem acc_fail {i : Nat} {l : List (Fr V)} (h : ∀ r, Acc (Next P main) (give P r l)) : Acc (Next P main) (.fail i :: l) := by
  refine ⟨_, ?_⟩; rintro l' ⟨s, e, m⟩; cases m; exact h _

theorem acc_unlock {i : Nat} {p : Bool} {l : List (Fr V)} (h : ∀ r, Acc (Next P main) (give P r l)) : Acc (Next P main) (.unlock i p :: l) := by
  refine ⟨_, ?_⟩; rintro l' ⟨s, e, m⟩; cases m
  · exact acc_read h
  · exact acc_fail h

theorem acc_setDone {i : Nat} {p : Bool} {l : List (Fr V)} (h : ∀ r, Acc (Next P main) (give P r l)) : Acc (Next P main) (.setDone i p :: l) := by
  refine ⟨_, ?_⟩; rintro l' ⟨s, e, m⟩; cases m; exact acc_unlock h

theorem acc_write {i : Nat} {v : V} {l : List (Fr V)} (h : ∀ r, Acc (Next P main) (give P r l)) : Acc (Next P main) (.write i v :: l) := by
  refine ⟨_, ?_⟩; rintro l' ⟨s, e, m⟩; cases m; exact acc_setDone h

theorem acc_load {i : Nat} {l : List (Fr V)} (h : ∀ r, Acc (Next P main) (give P r l)) (hb : Acc (Next P main) (.build i [] :: l)) :
    Acc (Next P main) (.load i :: l) := by
  refine ⟨_, ?_⟩; rintro l' ⟨s, e, m⟩; cases m
  · exact acc_read h
  · refine ⟨_, ?_⟩; rintro l' ⟨s, e, m⟩; cases m
    refine ⟨_, ?_⟩; rintro l' ⟨s, e, m⟩; cases m
    · exact acc_unlock h
    · exact hb

theorem acc_build {i : Nat} {got : List (Option V)} (he : Ends P i got) :
    ∀ l, (∀ r, Acc (Next P main) (give P r l)) → Acc (Next P main) (.build i got :: l) := by
  induction he with
  | ret hc =>
    intro l h
    refine ⟨_, ?_⟩; rintro l' ⟨s, e, m⟩
    cases m with
    | built _ => exact acc_write h
    | need h' => rw [hc] at h'; cases h'
    | panics h' => rw [hc] at h'; cases h'
  | panic hc =>
    intro l h
    refine ⟨_, ?_⟩; rintro l' ⟨s, e, m⟩
    cases m with
    | built h' => rw [hc] at h'; cases h'
    | need h' => rw [hc] at h'; cases h'
    | panics _ => exact acc_setDone h
  | @get i got j g hc _ _ _ ih1 ih2 ih3 =>
    intro l h
    refine ⟨_, ?_⟩; rintro l' ⟨s, e, m⟩
    cases m with
    | built h' => rw [hc] at h'; cases h'
    | panics h' => rw [hc] at h'; cases h'
    | need h' =>
      rw [hc] at h'
      cases h'
      have hr : ∀ r, Acc (Next P main) (give P r (.build i got :: l)) := by
        intro r
        cases r with
        | some v =>
          have : give P (some v) (.build i got :: l) = .build i (got ++ [some v]) :: l := by simp [give]
          rw [this]; exact ih2 v l h
        | none =>
          cases g with
          | true =>
            have : give P none (.build i got :: l) = .build i (got ++ [none]) :: l := by simp [give, hc]
            rw [this]; exact ih3 rfl l h
          | false =>
            have : give P none (.build i got :: l) = .setDone i true :: l := by simp [give, hc]
            rw [this]; exact acc_setDone h
      exact acc_load hr (ih1 _ hr)

theorem acc_main {got : List (Option V)} (h : MainEnds P main got) : Acc (Next P main) [.main got] := by
  induction h with
  | stop hm =>
    refine ⟨_, ?_⟩; rintro l' ⟨s, e, m⟩; cases m with
    | call h => rw [hm] at h; cases h
  | get hm he _ ih =>
    refine ⟨_, ?_⟩; rintro l' ⟨s, e, m⟩; cases m with
    | call h =>
      rw [hm] at h
      cases h
      exact acc_load ih (acc_build he _ ih)

end

theorem idle {N : Nat} (hN : ∀ t, N ≤ t → prog t [] = none) {s : St V} (h : Reach P prog s) : ∀ t, N ≤ t → s.thr t = [.main []] := by
  induction h with
  | start => intro t _; rfl
  | @step s s' u _ hs ih =>
    intro t ht
    cases hs with
    | @mk e l m =>
      show upd s.thr u l t = _
      by_cases e1 : t = u
      · subst e1
        rw [ih t ht] at m
        cases m with
        | call h => rw [hN t ht] at h; cases h
      · rw [upd_ne _ _ e1]; exact ih t ht

end Verif.LazyAll
