import Verif.LazyAll.Spec
/-!
# Invariants of lazies shared by goroutines
-/
namespace Verif.LazyAll
open LazyPanic (Prog Act Value ValueFrom NoPanic)

variable {V : Type} {P : Prog V} {prog : Nat → List (Option V) → Option Nat}

@[simp] theorem upd_same {β : Type} (f : Nat → β) (i : Nat) (b : β) : upd f i b i = b := if_pos rfl
theorem upd_ne {β : Type} (f : Nat → β) {i k : Nat} (b : β) (h : k ≠ i) : upd f i b k = f k := if_neg h

/-! ## The mutexes -/

/-- The frame holds the mutex of `i`. -/
def holds (i : Nat) : Fr V → Bool
  | .check k => k = i
  | .build k _ => k = i
  | .write k _ => k = i
  | .setDone k _ => k = i
  | .unlock k _ => k = i
  | _ => false

/-- The frame is between the start of the constructor of `i` and the setting of `done`. -/
def act (i : Nat) : Fr V → Bool
  | .build k _ => k = i
  | .write k _ => k = i
  | .setDone k _ => k = i
  | _ => false

theorem act_holds {i : Nat} {f : Fr V} (h : act i f = true) : holds i f = true := by
  cases f <;> simp_all [act, holds]

/-- How often a step locks and unlocks. -/
def locksOf (i : Nat) : Eff V → Nat
  | .lock k => if k = i then 1 else 0
  | _ => 0

def unlocksOf (i : Nat) : Eff V → Nat
  | .unlock k => if k = i then 1 else 0
  | _ => 0

theorem give_holds (i : Nat) (r : Option V) (l : List (Fr V)) : (give P r l).countP (holds i) = l.countP (holds i) := by
  unfold give
  split
  · simp [holds]
  · split <;> simp [holds, List.countP_cons]
  · rfl

theorem mv_holds {main : List (Option V) → Option Nat} {s : St V} {l l' : List (Fr V)} {e : Eff V} (m : Mv P main s l e l') (i : Nat) :
    l'.countP (holds i) + unlocksOf i e = l.countP (holds i) + locksOf i e := by
  cases m <;> simp only [give_holds, List.countP_cons, holds, locksOf, unlocksOf, decide_eq_true_eq] <;> simp <;> omega

theorem eff_thr (s : St V) (t : Nat) (e : Eff V) : (s.eff t e).thr = s.thr := by cases e <;> rfl

/-- The mutex of a lazy is held by the goroutine that is inside it, once. -/
def Locks (s : St V) : Prop := ∀ t i, (s.thr t).countP (holds i) = if s.mu i = some t then 1 else 0

theorem eff_mu (s : St V) (t : Nat) (e : Eff V) (i : Nat) : (s.eff t e).mu i =
    if locksOf i e = 1 then some t else if unlocksOf i e = 1 then none else s.mu i := by
  cases e <;> simp only [St.eff, locksOf, unlocksOf, upd]
  case lock k => by_cases h : k = i <;> simp [h, Ne.symm] <;> intro h' <;> exact absurd h'.symm h
  case unlock k => by_cases h : k = i <;> simp [h] <;> intro h' <;> exact absurd h'.symm h
  all_goals simp

theorem locks_step {t : Nat} {s s' : St V} (hi : Locks s) (hs : Step P prog t s s') : Locks s' := by
  cases hs with
  | @mk e l m =>
    intro u k
    have hc := mv_holds m k
    have ht := hi t k
    have hu' := hi u k
    show (upd s.thr t l u).countP (holds k) = if (s.eff t e).mu k = some u then 1 else 0
    rw [eff_mu]
    have hl : locksOf k e = 1 → s.mu k = none := by
      intro h
      generalize s.thr t = l0 at m
      cases m <;> simp [locksOf] at h
      subst h; assumption
    have hl1 : locksOf k e = 0 ∨ locksOf k e = 1 := by cases e <;> simp [locksOf]; omega
    have hl2 : unlocksOf k e = 0 ∨ (unlocksOf k e = 1 ∧ locksOf k e = 0 ∧ 0 < (s.thr t).countP (holds k)) := by
      generalize s.thr t = l0 at m
      cases m <;> simp only [unlocksOf, locksOf]
      case unlock i l => by_cases h : i = k <;> simp [h, holds, List.countP_cons]
      case unlockPanic i l => by_cases h : i = k <;> simp [h, holds, List.countP_cons]
      all_goals simp
    by_cases e1 : u = t
    · subst e1
      rw [upd_same]
      rcases hl1 with h1 | h1
      · rcases hl2 with h2 | ⟨h2, _, h3⟩
        · rw [h1, h2] at hc ⊢; simp only [Nat.add_zero] at hc; rw [hc, ht]; simp
        · rw [if_neg (by omega : ¬ locksOf k e = 1), if_pos h2, if_neg (by simp)]
          split at ht <;> omega
      · rw [if_pos h1, if_pos rfl]
        rw [hl h1, if_neg (by simp)] at ht
        rcases hl2 with h2 | ⟨_, h2, _⟩ <;> omega
    · rw [upd_ne _ _ e1, hu']
      rcases hl1 with h1 | h1
      · rcases hl2 with h2 | ⟨h2, _, h3⟩
        · rw [h1, h2]; simp
        · have : s.mu k = some t := by
            apply Classical.byContradiction
            intro hn
            rw [if_neg hn] at ht; omega
          rw [if_neg (by omega : ¬ locksOf k e = 1), if_pos h2, this]; simp [Ne.symm e1]
      · rw [if_pos h1, hl h1]; simp [Ne.symm e1]

theorem locks_reach {s : St V} (h : Reach P prog s) : Locks s := by
  induction h with
  | start => intro t i; simp [start, holds]
  | step _ hs ih => exact locks_step ih hs

theorem held_of_mem {s : St V} (hi : Locks s) {t i : Nat} {f : Fr V} (hf : f ∈ s.thr t) (ho : holds i f = true) :
    s.mu i = some t := by
  have := hi t i
  have h1 : 0 < (s.thr t).countP (holds i) := List.countP_pos_iff.2 ⟨f, hf, ho⟩
  apply Classical.byContradiction
  intro hn
  rw [if_neg hn] at this
  omega

/-- Below a frame that holds a mutex no other frame holds it. -/
theorem rest_free {s : St V} (hi : Locks s) {t i : Nat} {f g : Fr V} {l : List (Fr V)} (h : s.thr t = f :: l)
    (ho : holds i f = true) (hg : g ∈ l) : holds i g = false := by
  have h1 := hi t i
  rw [held_of_mem hi (f := f) (by rw [h]; exact List.mem_cons_self) ho, h, List.countP_cons] at h1
  simp [ho] at h1
  simpa using h1 g hg

theorem others_free {s : St V} (hi : Locks s) {t u i : Nat} {f g : Fr V} (h : f ∈ s.thr t)
    (ho : holds i f = true) (hu : u ≠ t) (hg : g ∈ s.thr u) : holds i g = false := by
  apply Classical.byContradiction
  intro hn
  have h1 := held_of_mem hi hg (by simpa using hn : holds i g = true)
  have h2 := held_of_mem hi h ho
  rw [h1] at h2; cases h2; exact hu rfl

/-! ## Results that agree with the definitions -/

/-- `S i r`: lazy `i` may give `r`; `B i got`: its constructor may be at `got`; `M t got`: so may goroutine `t`. -/
structure Closed (P : Prog V) (prog : Nat → List (Option V) → Option Nat) (S : Nat → Option V → Prop) (B : Nat → List (Option V) → Prop)
    (M : Nat → List (Option V) → Prop) : Prop where
  main : ∀ t, M t []
  first : ∀ {t got i}, M t got → prog t got = some i → B i []
  more : ∀ {t got i r}, M t got → prog t got = some i → S i r → M t (got ++ [r])
  need : ∀ {k got j g}, B k got → P.ctor k got = .get j g → B j []
  got : ∀ {k got j g v}, B k got → P.ctor k got = .get j g → S j (some v) → B k (got ++ [some v])
  caught : ∀ {k got j}, B k got → P.ctor k got = .get j true → S j none → B k (got ++ [none])
  through : ∀ {k got j}, B k got → P.ctor k got = .get j false → S j none → S k none ∧ S k (some P.zero)
  ret : ∀ {k got v}, B k got → P.ctor k got = .ret v → S k (some v)
  panic : ∀ {k got}, B k got → P.ctor k got = .panic → S k none ∧ S k (some P.zero)

/-- The stack of a goroutine: `w` is the lazy that the frames above are getting. -/
def ok (P : Prog V) (main : List (Option V) → Option Nat) (B : Nat → List (Option V) → Prop) (M : List (Option V) → Prop) :
    Option Nat → List (Fr V) → Prop
  | _, [] => False
  | w, .main got :: l => l = [] ∧ M got ∧ ∀ j, w = some j → main got = some j
  | w, .build i got :: l => (B i got ∧ ∀ j, w = some j → ∃ g, P.ctor i got = .get j g) ∧ ok P main B M (some i) l
  | w, .load i :: l => w = none ∧ ok P main B M (some i) l
  | w, .lock i :: l => w = none ∧ ok P main B M (some i) l
  | w, .check i :: l => w = none ∧ ok P main B M (some i) l
  | w, .write i _ :: l => w = none ∧ ok P main B M (some i) l
  | w, .setDone i _ :: l => w = none ∧ ok P main B M (some i) l
  | w, .unlock i _ :: l => w = none ∧ ok P main B M (some i) l
  | w, .read i :: l => w = none ∧ ok P main B M (some i) l
  | w, .fail i :: l => w = none ∧ ok P main B M (some i) l

variable {S : Nat → Option V → Prop} {B M : Nat → List (Option V) → Prop}

theorem ok_first (c : Closed P prog S B M) {t i : Nat} {l : List (Fr V)} (h : ok P (prog t) B (M t) (some i) l) : B i [] := by
  cases l with
  | nil => exact h.elim
  | cons f l =>
    cases f with
    | main got => exact c.first h.2.1 (h.2.2 i rfl)
    | build k got =>
      obtain ⟨g, hg⟩ := h.1.2 i rfl
      exact c.need h.1.1 hg
    | _ => exact absurd h.1 (by simp)

/-- What holds of the lazy that a frame is about. -/
def FrOk (P : Prog V) (S : Nat → Option V → Prop) (s : St V) : Fr V → Prop
  | .build i _ => s.done i = false ∧ s.value i = P.zero
  | .write i v => s.done i = false ∧ s.value i = P.zero ∧ S i (some v)
  | .setDone i p => s.done i = false ∧ S i (some (s.value i)) ∧ (p = true → S i none ∧ s.value i = P.zero)
  | .unlock i p => s.done i = true ∧ (p = true → S i none ∧ s.value i = P.zero)
  | .read i => s.done i = true
  | .fail i => s.done i = true ∧ S i none ∧ s.value i = P.zero
  | _ => True

structure Inv (P : Prog V) (prog : Nat → List (Option V) → Option Nat) (S : Nat → Option V → Prop) (B M : Nat → List (Option V) → Prop)
    (s : St V) : Prop where
  stk : ∀ t, ok P (prog t) B (M t) none (s.thr t)
  fr : ∀ t, ∀ f ∈ s.thr t, FrOk P S s f
  done : ∀ i, s.done i = true → S i (some (s.value i))
  few : ∀ i, (s.runs i).length ≤ 1
  fresh : ∀ i, s.runs i = [] → s.done i = false ∧ s.value i = P.zero
  ran : ∀ t i, ∀ f ∈ s.thr t, act i f = true → s.runs i ≠ []
  busy : ∀ i, s.done i = false → s.runs i ≠ [] → ∃ t, ∃ f ∈ s.thr t, act i f = true
  log : ∀ i r, (i, r) ∈ s.log → s.done i = true ∧ S i r ∧ (r = some (s.value i) ∨ r = none ∧ s.value i = P.zero)

theorem give_ok (c : Closed P prog S B M) {t i : Nat} {r : Option V} {l : List (Fr V)} (h : ok P (prog t) B (M t) (some i) l)
    (hr : S i r) : ok P (prog t) B (M t) none (give P r l) := by
  cases l with
  | nil => exact h
  | cons f l =>
    cases f with
    | main got => exact ⟨h.1, c.more h.2.1 (h.2.2 i rfl) hr, fun j hj => (by cases hj)⟩
    | build k got =>
      obtain ⟨⟨hb, hg⟩, h2⟩ := h
      obtain ⟨g, hg⟩ := hg i rfl
      cases r with
      | some v =>
        have : give P (some v) (.build k got :: l) = .build k (got ++ [some v]) :: l := by simp [give]
        rw [this]
        exact ⟨⟨c.got hb hg hr, fun j hj => (by cases hj)⟩, h2⟩
      | none =>
        cases g with
        | true =>
          have : give P none (.build k got :: l) = .build k (got ++ [none]) :: l := by simp [give, hg]
          rw [this]
          exact ⟨⟨c.caught hb hg hr, fun j hj => (by cases hj)⟩, h2⟩
        | false =>
          have : give P none (.build k got :: l) = .setDone k true :: l := by simp [give, hg]
          rw [this]
          exact ⟨rfl, h2⟩
    | _ => exact absurd h.1 (by simp)

/-- The frames of a stack after a `Get` has given `r`. -/
theorem give_mem (c : Closed P prog S B M) {t i : Nat} {r : Option V} {l : List (Fr V)} {s : St V}
    (h : ok P (prog t) B (M t) (some i) l) (hr : S i r) (hf : ∀ f ∈ l, FrOk P S s f) : ∀ f ∈ give P r l, FrOk P S s f := by
  cases l with
  | nil => exact hf
  | cons f l =>
    have htl : ∀ g ∈ l, FrOk P S s g := fun g hg => hf g (List.mem_cons_of_mem _ hg)
    cases f with
    | main got =>
      intro g hg
      rcases List.mem_cons.1 hg with rfl | hg
      · trivial
      · exact htl g hg
    | build k got =>
      obtain ⟨⟨hb, hg⟩, h2⟩ := h
      obtain ⟨g, hg⟩ := hg i rfl
      have hk := hf _ List.mem_cons_self
      have hsame : ∀ got', ∀ g ∈ Fr.build k got' :: l, FrOk P S s g := by
        intro got' g hg
        rcases List.mem_cons.1 hg with rfl | hg
        · exact hk
        · exact htl g hg
      cases r with
      | some v =>
        have : give P (some v) (.build k got :: l) = .build k (got ++ [some v]) :: l := by simp [give]
        rw [this]
        exact hsame _
      | none =>
        cases g with
        | true =>
          have : give P none (.build k got :: l) = .build k (got ++ [none]) :: l := by simp [give, hg]
          rw [this]
          exact hsame _
        | false =>
          have : give P none (.build k got :: l) = .setDone k true :: l := by simp [give, hg]
          rw [this]
          intro g hg'
          rcases List.mem_cons.1 hg' with rfl | hg'
          · have := c.through hb hg hr
            exact ⟨hk.1, by rw [hk.2]; exact this.2, fun _ => ⟨this.1, hk.2⟩⟩
          · exact htl g hg'
    | _ => exact absurd h.1 (by simp)

/-- The lazies a step writes to. -/
def touches (i : Nat) : Eff V → Bool
  | .write k _ => k = i
  | .set k => k = i
  | _ => false

/-- Frames about lazies that are not written to. -/
theorem fr_stable {s : St V} {t : Nat} {e : Eff V} {f : Fr V} {l : List (Fr V)} (h : FrOk P S s f) (ha : ∀ i, touches i e = true → act i f = false)
    (hw : ∀ i v, e = .write i v → s.done i = false) : FrOk P S { s.eff t e with thr := upd s.thr t l } f := by
  cases e with
  | write i v =>
    have hd := hw i v rfl
    have hv : ∀ k, k ≠ i → upd s.value i v k = s.value k := fun k hk => upd_ne _ _ hk
    cases f with
    | build k got =>
      have := ha i (by simp [touches])
      simp only [act, decide_eq_false_iff_not] at this
      exact ⟨h.1, (hv k this).trans h.2⟩
    | write k w =>
      have := ha i (by simp [touches])
      simp only [act, decide_eq_false_iff_not] at this
      exact ⟨h.1, (hv k this).trans h.2.1, h.2.2⟩
    | setDone k p =>
      have := ha i (by simp [touches])
      simp only [act, decide_eq_false_iff_not] at this
      refine ⟨h.1, ?_, fun hp => ⟨(h.2.2 hp).1, (hv k this).trans (h.2.2 hp).2⟩⟩
      show S k (some (upd s.value i v k))
      rw [hv k this]; exact h.2.1
    | unlock k p =>
      have hk : k ≠ i := fun e => (by have h1 := h.1; rw [e, hd] at h1; exact absurd h1 (by simp))
      exact ⟨h.1, fun hp => ⟨(h.2 hp).1, (hv k hk).trans (h.2 hp).2⟩⟩
    | read k => exact h
    | fail k =>
      have hk : k ≠ i := fun e => (by have h1 := h.1; rw [e, hd] at h1; exact absurd h1 (by simp))
      exact ⟨h.1, h.2.1, (hv k hk).trans h.2.2⟩
    | _ => trivial
  | set i =>
    have hv : ∀ k, k ≠ i → upd s.done i true k = s.done k := fun k hk => upd_ne _ _ hk
    have hm : ∀ k, s.done k = true → upd s.done i true k = true := by
      intro k hk; unfold upd; split
      · rfl
      · exact hk
    cases f with
    | build k got =>
      have := ha i (by simp [touches])
      simp only [act, decide_eq_false_iff_not] at this
      exact ⟨(hv k this).trans h.1, h.2⟩
    | write k w =>
      have := ha i (by simp [touches])
      simp only [act, decide_eq_false_iff_not] at this
      exact ⟨(hv k this).trans h.1, h.2⟩
    | setDone k p =>
      have := ha i (by simp [touches])
      simp only [act, decide_eq_false_iff_not] at this
      exact ⟨(hv k this).trans h.1, h.2⟩
    | unlock k p => exact ⟨hm k h.1, h.2⟩
    | read k => exact hm k h
    | fail k => exact ⟨hm k h.1, h.2⟩
    | _ => trivial
  | _ => cases f <;> exact h

theorem mv_stk (c : Closed P prog S B M) {t : Nat} {s : St V} {l l' : List (Fr V)} {e : Eff V} (m : Mv P (prog t) s l e l')
    (h : ok P (prog t) B (M t) none l) (hf : ∀ f ∈ l, FrOk P S s f) (hd : ∀ i, s.done i = true → S i (some (s.value i))) :
    ok P (prog t) B (M t) none l' := by
  cases m with
  | call hm => exact ⟨rfl, h.1, h.2.1, fun j hj => (by cases hj; exact hm)⟩
  | loadSet _ => exact ⟨rfl, h.2⟩
  | loadUnset _ => exact ⟨rfl, h.2⟩
  | lock _ => exact ⟨rfl, h.2⟩
  | checkSet _ => exact ⟨rfl, h.2⟩
  | checkUnset _ => exact ⟨⟨ok_first c h.2, fun j hj => (by cases hj)⟩, h.2⟩
  | need hc => exact ⟨rfl, ⟨h.1.1, fun j hj => (by cases hj; exact ⟨_, hc⟩)⟩, h.2⟩
  | built _ => exact ⟨rfl, h.2⟩
  | panics _ => exact ⟨rfl, h.2⟩
  | write => exact ⟨rfl, h.2⟩
  | setDone => exact ⟨rfl, h.2⟩
  | unlock => exact ⟨rfl, h.2⟩
  | unlockPanic => exact ⟨rfl, h.2⟩
  | read => exact give_ok c h.2 (hd _ (hf _ List.mem_cons_self))
  | fail => exact give_ok c h.2 (hf _ List.mem_cons_self).2.1

/-- Only the top frame touches a lazy, and nobody else is in it then. -/
theorem mv_touches {t : Nat} {s : St V} {e : Eff V} {l l' : List (Fr V)} (hl : Locks s) (m : Mv P (prog t) s (s.thr t) e l')
    (ht : s.thr t = l) {i : Nat} (hi : touches i e = true) :
    (∀ f ∈ l.tail, act i f = false) ∧ (∀ u, u ≠ t → ∀ f ∈ s.thr u, act i f = false) := by
  have key : ∀ f r, s.thr t = f :: r → act i f = true → (∀ f ∈ l.tail, act i f = false) ∧ (∀ u, u ≠ t → ∀ f ∈ s.thr u, act i f = false) := by
    intro f r hr ha
    have no : ∀ g : Fr V, holds i g = false → act i g = false := by
      intro g hg
      apply Classical.byContradiction
      intro hn
      rw [act_holds (by simpa using hn)] at hg; cases hg
    rw [ht] at hr
    refine ⟨fun g hg => no g ?_, fun u hu g hg => no g ?_⟩
    · subst ht
      rw [hr] at hg
      exact rest_free hl hr (act_holds ha) hg
    · exact others_free hl (t := t) (by rw [ht, hr]; exact List.mem_cons_self) (act_holds ha) hu hg
  generalize hq : s.thr t = q at m
  cases m <;> simp [touches] at hi
  · exact key _ _ hq (by simp [act, hi])
  · exact key _ _ hq (by simp [act, hi])

theorem mv_write {main : List (Option V) → Option Nat} {s : St V} {l l' : List (Fr V)} {e : Eff V} (m : Mv P main s l e l')
    (hf : ∀ f ∈ l, FrOk P S s f) : ∀ i v, e = .write i v → s.done i = false := by
  intro i v he
  cases m <;> cases he
  exact (hf _ List.mem_cons_self).1

theorem mv_fr (c : Closed P prog S B M) {t : Nat} {s : St V} {l' : List (Fr V)} {e : Eff V} (hl : Locks s) (m : Mv P (prog t) s (s.thr t) e l')
    (h : ok P (prog t) B (M t) none (s.thr t)) (hf : ∀ f ∈ s.thr t, FrOk P S s f)
    (hd : ∀ i, s.done i = true → S i (some (s.value i))) (hfresh : ∀ i, s.done i = false → (∀ u, ∀ f ∈ s.thr u, act i f = false) → s.value i = P.zero) :
    ∀ f ∈ l', FrOk P S { s.eff t e with thr := upd s.thr t l' } f := by
  have hto := fun i => mv_touches (i := i) hl m rfl
  have hwr := mv_write m hf
  have hm := m
  have stable : ∀ f ∈ (s.thr t).tail, FrOk P S { s.eff t e with thr := upd s.thr t l' } f := fun f hfm =>
    fr_stable (hf f (List.mem_of_mem_tail hfm)) (fun i hi => (hto i hi).1 f hfm) hwr
  have holdsT : ∀ i f r, s.thr t = f :: r → holds i f = true → act i f = false → ∀ u, ∀ g ∈ s.thr u, act i g = false := by
    intro i f r hr ha hna u g hg
    apply Classical.byContradiction
    intro hn
    have hg' := act_holds (by simpa using hn : act i g = true)
    by_cases e : u = t
    · subst e
      rw [hr] at hg
      rcases List.mem_cons.1 hg with rfl | hg
      · exact hn hna
      · rw [rest_free hl hr ha hg] at hg'; cases hg'
    · rw [others_free hl (t := t) (by rw [hr]; exact List.mem_cons_self) ha e hg] at hg'; cases hg'
  generalize hq : s.thr t = q at m
  have hmem : ∀ x r, q = x :: r → FrOk P S s x := fun x r e => hf x (by rw [hq, e]; exact List.mem_cons_self)
  rw [hq] at stable h
  cases m with
  | call hc =>
    intro f hfm
    rcases List.mem_cons.1 hfm with rfl | hfm
    · trivial
    · rcases List.mem_cons.1 hfm with rfl | hfm
      · trivial
      · exact stable f hfm
  | need hc =>
    intro f hfm
    rcases List.mem_cons.1 hfm with rfl | hfm
    · trivial
    · rcases List.mem_cons.1 hfm with rfl | hfm
      · exact hmem _ _ rfl
      · exact stable f hfm
  | read =>
    have := hmem _ _ rfl
    have h2 := give_mem (s := s) c h.2 (hd _ this) (fun f hfm => hf f (by rw [hq]; exact List.mem_cons_of_mem _ hfm))
    intro f hfm
    exact fr_stable (h2 f hfm) (fun i hi => by simp [touches] at hi) hwr
  | fail =>
    have := hmem _ _ rfl
    have h2 := give_mem (s := s) c h.2 this.2.1 (fun f hfm => hf f (by rw [hq]; exact List.mem_cons_of_mem _ hfm))
    intro f hfm
    exact fr_stable (h2 f hfm) (fun i hi => by simp [touches] at hi) hwr
  | checkUnset hn =>
    intro f hfm
    rcases List.mem_cons.1 hfm with rfl | hfm
    · exact ⟨hn, hfresh _ hn (holdsT _ _ _ hq (by simp [holds]) (by simp [act]))⟩
    · exact stable f hfm
  | built hc =>
    intro f hfm
    rcases List.mem_cons.1 hfm with rfl | hfm
    · have := hmem _ _ rfl
      exact ⟨this.1, this.2, c.ret h.1.1 hc⟩
    · exact stable f hfm
  | panics hc =>
    intro f hfm
    rcases List.mem_cons.1 hfm with rfl | hfm
    · have := hmem _ _ rfl
      have hp := c.panic h.1.1 hc
      exact ⟨this.1, by show S _ (some (s.value _)); rw [this.2]; exact hp.2, fun _ => ⟨hp.1, this.2⟩⟩
    · exact stable f hfm
  | write =>
    intro f hfm
    rcases List.mem_cons.1 hfm with rfl | hfm
    · have := hmem _ _ rfl
      refine ⟨this.1, ?_, fun h => by cases h⟩
      show S _ (some (upd s.value _ _ _))
      rw [upd_same]; exact this.2.2
    · exact stable f hfm
  | setDone =>
    intro f hfm
    rcases List.mem_cons.1 hfm with rfl | hfm
    · have := hmem _ _ rfl
      exact ⟨upd_same _ _ _, this.2.2⟩
    · exact stable f hfm
  | unlock =>
    intro f hfm
    rcases List.mem_cons.1 hfm with rfl | hfm
    · exact (hmem _ _ rfl).1
    · exact stable f hfm
  | unlockPanic =>
    intro f hfm
    rcases List.mem_cons.1 hfm with rfl | hfm
    · have := hmem _ _ rfl
      exact ⟨this.1, this.2 rfl⟩
    · exact stable f hfm
  | loadSet hn =>
    intro f hfm
    rcases List.mem_cons.1 hfm with rfl | hfm
    · exact hn
    · exact stable f hfm
  | loadUnset hn =>
    intro f hfm
    rcases List.mem_cons.1 hfm with rfl | hfm
    · trivial
    · exact stable f hfm
  | lock hn =>
    intro f hfm
    rcases List.mem_cons.1 hfm with rfl | hfm
    · trivial
    · exact stable f hfm
  | checkSet hn =>
    intro f hfm
    rcases List.mem_cons.1 hfm with rfl | hfm
    · exact ⟨hn, fun h => by cases h⟩
    · exact stable f hfm

/-- A frame inside a lazy stays inside it until `done` is set. -/
theorem mv_act {main : List (Option V) → Option Nat} {s : St V} {l l' : List (Fr V)} {e : Eff V} (m : Mv P main s l e l') (i : Nat)
    (h : ∃ f ∈ l, act i f = true) : (∃ f ∈ l', act i f = true) ∨ e = .set i := by
  obtain ⟨f, hf, ha⟩ := h
  have hg : ∀ r (l : List (Fr V)), f ∈ l → ∃ g ∈ give P r l, act i g = true := by
    intro r l hf
    unfold give
    split
    · rcases List.mem_cons.1 hf with rfl | hf
      · simp [act] at ha
      · exact ⟨f, List.mem_cons_of_mem _ hf, ha⟩
    · rcases List.mem_cons.1 hf with rfl | hf
      · split
        · exact ⟨_, List.mem_cons_self, ha⟩
        · exact ⟨_, List.mem_cons_self, ha⟩
      · split
        · exact ⟨f, List.mem_cons_of_mem _ hf, ha⟩
        · exact ⟨f, List.mem_cons_of_mem _ hf, ha⟩
    · exact ⟨f, hf, ha⟩
  cases m <;> rcases List.mem_cons.1 hf with rfl | hf
  case setDone.inl => simp only [act, decide_eq_true_eq] at ha; subst ha; exact .inr rfl
  case need.inl => exact .inl ⟨_, List.mem_cons_of_mem _ List.mem_cons_self, ha⟩
  case built.inl => exact .inl ⟨_, List.mem_cons_self, ha⟩
  case panics.inl => exact .inl ⟨_, List.mem_cons_self, ha⟩
  case write.inl => exact .inl ⟨_, List.mem_cons_self, ha⟩
  case read.inr => exact .inl (hg _ _ hf)
  case fail.inr => exact .inl (hg _ _ hf)
  case call.inr => exact .inl ⟨f, List.mem_cons_of_mem _ (List.mem_cons_of_mem _ hf), ha⟩
  case need.inr => exact .inl ⟨f, List.mem_cons_of_mem _ (List.mem_cons_of_mem _ hf), ha⟩
  all_goals first
    | (simp [act] at ha; done)
    | exact .inl ⟨f, List.mem_cons_of_mem _ hf, ha⟩

theorem mv_act_back {main : List (Option V) → Option Nat} {s : St V} {l l' : List (Fr V)} {e : Eff V} (m : Mv P main s l e l') (i : Nat)
    (h : ∃ f ∈ l', act i f = true) : (∃ f ∈ l, act i f = true) ∨ e = .run i := by
  obtain ⟨f, hf, ha⟩ := h
  have hg : ∀ r (l : List (Fr V)), f ∈ give P r l → ∃ g ∈ l, act i g = true := by
    intro r l hf
    unfold give at hf
    split at hf
    · rcases List.mem_cons.1 hf with rfl | hf
      · simp [act] at ha
      · exact ⟨f, List.mem_cons_of_mem _ hf, ha⟩
    · split at hf
      · rcases List.mem_cons.1 hf with rfl | hf
        · exact ⟨_, List.mem_cons_self, ha⟩
        · exact ⟨f, List.mem_cons_of_mem _ hf, ha⟩
      · rcases List.mem_cons.1 hf with rfl | hf
        · exact ⟨_, List.mem_cons_self, ha⟩
        · exact ⟨f, List.mem_cons_of_mem _ hf, ha⟩
    · exact ⟨f, hf, ha⟩
  cases m
  case read => obtain ⟨g, hg, ha⟩ := hg _ _ hf; exact .inl ⟨g, List.mem_cons_of_mem _ hg, ha⟩
  case fail => obtain ⟨g, hg, ha⟩ := hg _ _ hf; exact .inl ⟨g, List.mem_cons_of_mem _ hg, ha⟩
  all_goals rcases List.mem_cons.1 hf with rfl | hf
  case checkUnset.inl => simp only [act, decide_eq_true_eq] at ha; subst ha; exact .inr rfl
  case built.inl => exact .inl ⟨_, List.mem_cons_self, ha⟩
  case panics.inl => exact .inl ⟨_, List.mem_cons_self, ha⟩
  case write.inl => exact .inl ⟨_, List.mem_cons_self, ha⟩
  case call.inr => exact .inl ⟨f, hf, ha⟩
  case need.inr => exact .inl ⟨f, hf, ha⟩
  all_goals first
    | (simp [act] at ha; done)
    | exact .inl ⟨f, List.mem_cons_of_mem _ hf, ha⟩

/-- What the steps that write come from. -/
theorem mv_set {main : List (Option V) → Option Nat} {s : St V} {l l' : List (Fr V)} {i : Nat} (m : Mv P main s l (.set i) l') :
    ∃ p r, l = .setDone i p :: r := by cases m; exact ⟨_, _, rfl⟩

theorem mv_wr {main : List (Option V) → Option Nat} {s : St V} {l l' : List (Fr V)} {i : Nat} {v : V} (m : Mv P main s l (.write i v) l') :
    ∃ r, l = .write i v :: r := by cases m; exact ⟨_, rfl⟩

theorem mv_run {main : List (Option V) → Option Nat} {s : St V} {l l' : List (Fr V)} {i : Nat} (m : Mv P main s l (.run i) l') :
    ∃ r, l = .check i :: r ∧ l' = .build i [] :: r ∧ s.done i = false := by cases m; exact ⟨_, rfl, rfl, by assumption⟩

theorem mv_out {main : List (Option V) → Option Nat} {s : St V} {l l' : List (Fr V)} {i : Nat} {r : Option V}
    (m : Mv P main s l (.out i r) l') : ∃ q, (r = some (s.value i) ∧ l = .read i :: q ∨ r = none ∧ l = .fail i :: q) ∧ l' = give P r q := by
  cases m
  · exact ⟨_, .inl ⟨rfl, rfl⟩, rfl⟩
  · exact ⟨_, .inr ⟨rfl, rfl⟩, rfl⟩

/-- Nobody is in the constructor of a lazy whose mutex a goroutine has locked to look at `done`. -/
theorem check_alone {s : St V} (hl : Locks s) {t i : Nat} {r : List (Fr V)} (hr : s.thr t = .check i :: r) :
    ∀ u, ∀ g ∈ s.thr u, act i g = false := by
  intro u g hg
  apply Classical.byContradiction
  intro hn
  have hg' := act_holds (by simpa using hn : act i g = true)
  have hh : holds i (.check i : Fr V) = true := by simp [holds]
  by_cases e : u = t
  · subst e
    rw [hr] at hg
    rcases List.mem_cons.1 hg with rfl | hg
    · exact hn (by simp [act])
    · rw [rest_free hl hr hh hg] at hg'; cases hg'
  · rw [others_free hl (t := t) (by rw [hr]; exact List.mem_cons_self) hh e hg] at hg'; cases hg'

theorem inv_step (c : Closed P prog S B M) {t : Nat} {s s' : St V} (hl : Locks s) (hi : Inv P prog S B M s) (hs : Step P prog t s s') :
    Inv P prog S B M s' := by
  cases hs with
  | @mk e l m =>
  have hfree : ∀ i, s.done i = false → (∀ u, ∀ f ∈ s.thr u, act i f = false) → s.runs i = [] := by
    intro i hd ha
    apply Classical.byContradiction
    intro hn
    obtain ⟨u, f, hf, h⟩ := hi.busy i hd hn
    rw [ha u f hf] at h; cases h
  have hdone : ∀ i, s.done i = true → (s.eff t e).done i = true := by
    intro i h
    cases e <;> try exact h
    show upd s.done _ true i = true
    unfold upd; split
    · rfl
    · exact h
  have hval : ∀ i, (∀ v, e ≠ .write i v) → (s.eff t e).value i = s.value i := by
    intro i h
    cases e <;> try rfl
    case write k v => exact upd_ne _ _ (fun he => h v (by rw [he]))
  have hruns : ∀ i, e ≠ .run i → (s.eff t e).runs i = s.runs i := by
    intro i h
    cases e <;> try rfl
    case run k => exact upd_ne _ _ (fun he => h (by rw [he]))
  have hwr := mv_write m (hi.fr t)
  have hrun : ∀ i, e = .run i → s.runs i = [] := by
    intro i he
    subst he
    obtain ⟨r, h1, h2, h3⟩ := mv_run m
    exact hfree i h3 (check_alone hl h1)
  have hdone' : ∀ i, (s.eff t e).done i = true → S i (some ((s.eff t e).value i)) := by
    intro i h
    by_cases he : e = .set i
    · subst he
      obtain ⟨p, r, hr⟩ := mv_set m
      exact (hi.fr t (.setDone i p) (by rw [hr]; exact List.mem_cons_self)).2.1
    · have hd : s.done i = true := by
        cases e <;> try exact h
        case set k => rwa [show (s.eff t (.set k)).done i = s.done i from upd_ne _ _ (fun h => he (by rw [h]))] at h
      rw [hval i (fun v hv => by rw [hwr i v hv] at hd; cases hd)]
      exact hi.done i hd
  refine ⟨?_, ?_, hdone', ?_, ?_, ?_, ?_, ?_⟩
  · intro u
    show ok P (prog u) B (M u) none (upd s.thr t l u)
    by_cases e1 : u = t
    · subst e1
      rw [upd_same]
      exact mv_stk c m (hi.stk u) (hi.fr u) hi.done
    · rw [upd_ne _ _ e1]; exact hi.stk u
  · intro u f hf
    replace hf : f ∈ upd s.thr t l u := hf
    by_cases e1 : u = t
    · subst e1
      rw [upd_same] at hf
      exact mv_fr c hl m (hi.stk u) (hi.fr u) hi.done (fun i hd ha => (hi.fresh i (hfree i hd ha)).2) f hf
    · rw [upd_ne _ _ e1] at hf
      exact fr_stable (hi.fr u f hf) (fun i hto => (mv_touches hl m rfl hto).2 u e1 f hf) hwr
  · intro i
    show ((s.eff t e).runs i).length ≤ 1
    by_cases he : e = .run i
    · have := hrun i he
      subst he
      show (upd s.runs i _ i).length ≤ 1
      rw [upd_same, this]; simp
    · rw [hruns i he]; exact hi.few i
  · intro i h
    replace h : (s.eff t e).runs i = [] := h
    show (s.eff t e).done i = false ∧ (s.eff t e).value i = P.zero
    by_cases he : e = .run i
    · subst he
      replace h : upd s.runs i _ i = [] := h
      rw [upd_same] at h; simp at h
    · rw [hruns i he] at h
      obtain ⟨h1, h2⟩ := hi.fresh i h
      have hnt : touches i e = false := by
        apply Classical.byContradiction
        intro hn
        have : ∃ f ∈ s.thr t, act i f = true := by
          cases e <;> simp [touches] at hn
          case write k v =>
            obtain ⟨r, hr⟩ := mv_wr m
            exact ⟨_, by rw [hr]; exact List.mem_cons_self, by simp [act, hn]⟩
          case set k =>
            obtain ⟨p, r, hr⟩ := mv_set m
            exact ⟨_, by rw [hr]; exact List.mem_cons_self, by simp [act, hn]⟩
        obtain ⟨f, hf, ha⟩ := this
        exact hi.ran t i f hf ha h
      refine ⟨?_, ?_⟩
      · cases e <;> try exact h1
        case set k => exact (upd_ne _ _ (fun h => by simp [touches, h] at hnt)).trans h1
      · rw [hval i (fun v hv => by subst hv; simp [touches] at hnt)]; exact h2
  · intro u i f hf ha
    replace hf : f ∈ upd s.thr t l u := hf
    show (s.eff t e).runs i ≠ []
    by_cases he : e = .run i
    · subst he
      show upd s.runs i _ i ≠ []
      rw [upd_same]; simp
    · rw [hruns i he]
      by_cases e1 : u = t
      · subst e1
        rw [upd_same] at hf
        rcases mv_act_back m i ⟨f, hf, ha⟩ with ⟨g, hg, hga⟩ | h
        · exact hi.ran u i g hg hga
        · exact absurd h he
      · rw [upd_ne _ _ e1] at hf
        exact hi.ran u i f hf ha
  · intro i hd hr
    replace hd : (s.eff t e).done i = false := hd
    replace hr : (s.eff t e).runs i ≠ [] := hr
    have hd0 : s.done i = false := by
      apply Classical.byContradiction
      intro hn
      rw [hdone i (by simpa using hn)] at hd; cases hd
    by_cases he : e = .run i
    · subst he
      obtain ⟨r, h1, h2, h3⟩ := mv_run m
      refine ⟨t, .build i [], ?_, by simp [act]⟩
      show _ ∈ upd s.thr t l t
      rw [upd_same, h2]; exact List.mem_cons_self
    · rw [hruns i he] at hr
      obtain ⟨u, f, hf, ha⟩ := hi.busy i hd0 hr
      by_cases e1 : u = t
      · subst e1
        rcases mv_act m i ⟨f, hf, ha⟩ with ⟨g, hg, hga⟩ | h
        · refine ⟨u, g, ?_, hga⟩
          show _ ∈ upd s.thr u l u
          rw [upd_same]; exact hg
        · subst h
          replace hd : upd s.done i true i = false := hd
          rw [upd_same] at hd; cases hd
      · refine ⟨u, f, ?_, ha⟩
        show _ ∈ upd s.thr t l u
        rw [upd_ne _ _ e1]; exact hf
  · intro i r hr
    have old : ∀ i r, (i, r) ∈ s.log → (s.eff t e).done i = true ∧ S i r ∧
        (r = some ((s.eff t e).value i) ∨ r = none ∧ (s.eff t e).value i = P.zero) := by
      intro i r h
      obtain ⟨h1, h2, h3⟩ := hi.log i r h
      rw [hval i (fun v hv => by rw [hwr i v hv] at h1; cases h1)]
      exact ⟨hdone i h1, h2, h3⟩
    cases e <;> try exact old i r hr
    case out k q =>
      rcases List.mem_append.1 hr with hr | hr
      · exact old i r hr
      · cases List.mem_singleton.1 hr
        obtain ⟨z, hz | hz, _⟩ := mv_out m
        · have hd : s.done i = true := hi.fr t (.read i) (by rw [hz.2]; exact List.mem_cons_self)
          refine ⟨hd, ?_, .inl hz.1⟩
          rw [hz.1]; exact hi.done i hd
        · have hf := hi.fr t (.fail i) (by rw [hz.2]; exact List.mem_cons_self)
          rw [hz.1]
          exact ⟨hf.1, hf.2.1, .inr ⟨rfl, hf.2.2⟩⟩

theorem inv_reach (c : Closed P prog S B M) {s : St V} (h : Reach P prog s) : Inv P prog S B M s := by
  induction h with
  | start =>
    refine ⟨fun t => ⟨rfl, c.main t, fun j hj => (by cases hj)⟩, ?_, ?_, ?_, ?_, ?_, ?_, ?_⟩
    · intro t f hf; cases List.mem_singleton.1 hf; trivial
    · intro i h; cases h
    · intro i; exact Nat.zero_le _
    · intro i _; exact ⟨rfl, rfl⟩
    · intro t i f hf ha; cases List.mem_singleton.1 hf; cases ha
    · intro i _ h; exact absurd rfl h
    · intro i r h; cases h
  | step hr hs ih => exact inv_step c (locks_reach hr) ih hs

/-- Nothing is asked of the results. -/
theorem closed_true : Closed P prog (fun _ _ => True) (fun _ _ => True) (fun _ _ => True) := by
  constructor <;> intros <;> simp

end Verif.LazyAll
