import Verif.ConvConc.Spec
import Mathlib.Algebra.BigOperators.Group.Finset.Basic
import Mathlib.Algebra.Order.BigOperators.Group.Finset
/-!
# Invariants of the registry in concurrent use
-/
namespace Verif.ConvConc

variable {K : Type} [DecidableEq K]

/-- What the goroutine's first action says about the writer's side of the lock. -/
def cls : List (Act K) → Nat
  | .acq _ :: _ => 1
  | .wr _ :: _ => 2
  | .unlock :: _ => 2
  | _ => 0

def Later : Act K → Prop
  | .call _ => True
  | .runlock => True
  | _ => False

def rdOK : List (Act K) → Prop
  | .rd _ _ :: .runlock :: _ => True
  | .rd _ _ :: _ => False
  | _ => True

structure Inv (m : K → Option Nat) (s : St K) : Prop where
  tl : ∀ t, ∀ a ∈ (s.thr t).tail, Later a
  cnt : ∀ t, s.r t = (s.thr t).count .runlock
  pend : ∀ t, s.w = .pend t ↔ cls (s.thr t) = 1
  held : ∀ t, s.w = .held t ↔ cls (s.thr t) = 2
  excl : ∀ t, s.w = .held t → ∀ u, s.r u = 0
  rd : ∀ t, rdOK (s.thr t)
  map : ∀ k, s.map k = latest m k s.log

theorem cls_later {l : List (Act K)} (h : ∀ a ∈ l, Later a) : cls l = 0 := by
  cases l with
  | nil => rfl
  | cons a l => have := h a (by simp); cases a <;> simp_all [Later, cls]

theorem rdOK_later {l : List (Act K)} (h : ∀ a ∈ l, Later a) : rdOK l := by
  cases l with
  | nil => trivial
  | cons a l => have := h a (by simp); cases a <;> simp_all [Later, rdOK]

theorem after_later (body : Nat → List (Call K)) (b : Bool) (f : Option Nat) : ∀ a ∈ after body b f, Later a := by
  intro a ha
  cases f <;> cases b <;> simp [after] at ha
  obtain ⟨c, _, rfl⟩ := ha
  trivial

theorem after_count (body : Nat → List (Call K)) (b : Bool) (f : Option Nat) :
    (after body b f).count .runlock = 0 := by
  rw [List.count_eq_zero]
  intro ha
  cases f <;> cases b <;> simp [after] at ha

theorem inv_start (m : K → Option Nat) (prog : Nat → List (Call K)) : Inv m (start m prog) := by
  have hl : ∀ t, ∀ a ∈ ((prog t).map Act.call), Later a := by
    intro t a ha
    simp at ha
    obtain ⟨c, _, rfl⟩ := ha
    trivial
  refine ⟨?_, ?_, ?_, ?_, ?_, ?_, ?_⟩
  · intro t a ha
    exact hl t a (List.mem_of_mem_tail ha)
  · intro t
    show 0 = _
    symm
    rw [List.count_eq_zero]
    intro h
    simp [start] at h
  · intro t
    have := cls_later (hl t)
    simp [start, this]
  · intro t
    have := cls_later (hl t)
    simp [start, this]
  · intro t h
    cases h
  · intro t
    exact rdOK_later (hl t)
  · intro k
    rfl

theorem latest_wrote (m : K → Option Nat) (k : K) (l : List (Ev K)) (t : Nat) (o : Op K) (f : K → Option Nat)
    (h : ∀ k, f k = latest m k l) : o.apply f k = latest m k (l ++ [.wrote t o]) := by
  cases o with
  | reg k' c =>
    simp only [Op.apply, latest, List.reverse_append, List.reverse_cons, List.reverse_nil, List.nil_append,
      List.singleton_append, latestR, h, eq_comm]
  | unreg k' =>
    simp only [Op.apply, latest, List.reverse_append, List.reverse_cons, List.reverse_nil, List.nil_append,
      List.singleton_append, latestR, h, eq_comm]

theorem latest_read (m : K → Option Nat) (k : K) (l : List (Ev K)) (t : Nat) (k' : K) (b : Bool) (f : Option Nat) :
    latest m k (l ++ [.read t k' b f]) = latest m k l := by
  simp [latest, latestR]

theorem inv_step {body : Nat → List (Call K)} {m : K → Option Nat} {t : Nat} {s s' : St K}
    (hi : Inv m s) (hs : Step body t s s') : Inv m s' := by
  have hp := hi.pend t
  have hh := hi.held t
  have hc := hi.cnt t
  have ht := hi.tl t
  have hrd := hi.rd t
  cases hs with
  | announce o rest h hw =>
    rw [h] at hc ht
    refine ⟨?_, ?_, ?_, ?_, ?_, ?_, hi.map⟩
    · intro u; by_cases hu : u = t <;> simp_all [St.to]
      exact hi.tl u
    · intro u; by_cases hu : u = t <;> simp_all [St.to]
      exact hi.cnt u
    · intro u; by_cases hu : u = t
      · simp_all [St.to, cls]
      · have := hi.pend u
        rw [hw] at this
        simp [St.to, hu, Ne.symm hu]
        simpa using this
    · intro u; by_cases hu : u = t
      · simp_all [St.to, cls]
      · have := hi.held u; simp_all [St.to]
    · intro u h; simp [St.to] at h
    · intro u; by_cases hu : u = t
      · simp_all [St.to, rdOK]
      · have := hi.rd u; simp_all [St.to]
  | acquire o rest h hw h0 =>
    rw [h] at hc ht
    refine ⟨?_, ?_, ?_, ?_, ?_, ?_, hi.map⟩
    · intro u; by_cases hu : u = t <;> simp_all [St.to]
      exact hi.tl u
    · intro u; by_cases hu : u = t <;> simp_all [St.to]
      have := hi.cnt u; simp_all
    · intro u; by_cases hu : u = t
      · simp_all [St.to, cls]
      · have := hi.pend u; simp_all [St.to, eq_comm]
    · intro u; by_cases hu : u = t
      · simp_all [St.to, cls]
      · have := hi.held u; simp_all [St.to, eq_comm]
    · intro u _ v; exact h0 v
    · intro u; by_cases hu : u = t
      · simp_all [St.to, rdOK]
      · have := hi.rd u; simp_all [St.to]
  | write o rest h =>
    rw [h] at hc ht hp hh
    have hw : s.w = .held t := hh.2 rfl
    refine ⟨?_, ?_, ?_, ?_, ?_, ?_, ?_⟩
    · intro u; by_cases hu : u = t <;> simp_all [St.to]
      exact hi.tl u
    · intro u; by_cases hu : u = t <;> simp_all [St.to]
      exact hi.cnt u
    · intro u; by_cases hu : u = t
      · simp_all [St.to, cls]
      · have := hi.pend u; simp_all [St.to, eq_comm]
    · intro u; by_cases hu : u = t
      · simp_all [St.to, cls]
      · have := hi.held u; simp_all [St.to, eq_comm]
    · intro u _ v; exact hi.excl t hw v
    · intro u; by_cases hu : u = t
      · simp_all [St.to, rdOK]
      · have := hi.rd u; simp_all [St.to]
    · intro k; exact latest_wrote m k s.log t o s.map hi.map
  | unlock rest h =>
    rw [h] at hc ht hp hh
    have hw : s.w = .held t := hh.2 rfl
    have hl : ∀ a ∈ rest, Later a := ht
    refine ⟨?_, ?_, ?_, ?_, ?_, ?_, hi.map⟩
    · intro u; by_cases hu : u = t
      · subst hu
        intro a ha
        simp [St.to] at ha
        exact hl a (List.mem_of_mem_tail ha)
      · simp [St.to, hu]
        exact hi.tl u
    · intro u; by_cases hu : u = t <;> simp_all [St.to]
      exact hi.cnt u
    · intro u; by_cases hu : u = t
      · simp [St.to, hu, cls_later hl]
      · have := hi.pend u; simp_all [St.to, eq_comm]
    · intro u; by_cases hu : u = t
      · simp [St.to, hu, cls_later hl]
      · have := hi.held u
        rw [hw] at this
        simp [St.to, hu]
        intro hx
        have h1 := this.2 hx
        injection h1 with h1
        exact hu h1.symm
    · intro u h; simp [St.to] at h
    · intro u; by_cases hu : u = t
      · simp [St.to, hu, rdOK_later hl]
      · have := hi.rd u; simp_all [St.to]
  | rlockE k rest h hw =>
    rw [h] at hc ht
    refine ⟨?_, ?_, ?_, ?_, ?_, ?_, hi.map⟩
    · intro u; by_cases hu : u = t
      · subst hu
        intro a ha
        simp [St.to] at ha
        rcases ha with rfl | ha
        · trivial
        · exact ht a ha
      · simp [St.to, hu]; exact hi.tl u
    · intro u; by_cases hu : u = t
      · subst hu; simp_all [St.to, St.rdrs]
      · simp [St.to, St.rdrs, hu]; exact hi.cnt u
    · intro u; by_cases hu : u = t
      · simp [St.to, St.rdrs, hu, cls, hw]
      · have := hi.pend u; simp_all [St.to, St.rdrs]
    · intro u; by_cases hu : u = t
      · simp [St.to, St.rdrs, hu, cls, hw]
      · have := hi.held u; simp_all [St.to, St.rdrs]
    · intro u h; simp [St.to, St.rdrs, hw] at h
    · intro u; by_cases hu : u = t
      · simp [St.to, hu, rdOK]
      · have := hi.rd u; simp_all [St.to, St.rdrs]
  | rlockI k rest h hw =>
    rw [h] at hc ht
    refine ⟨?_, ?_, ?_, ?_, ?_, ?_, hi.map⟩
    · intro u; by_cases hu : u = t
      · subst hu
        intro a ha
        simp [St.to] at ha
        rcases ha with rfl | ha
        · trivial
        · exact ht a ha
      · simp [St.to, hu]; exact hi.tl u
    · intro u; by_cases hu : u = t
      · subst hu; simp_all [St.to, St.rdrs]
      · simp [St.to, St.rdrs, hu]; exact hi.cnt u
    · intro u; by_cases hu : u = t
      · simp [St.to, St.rdrs, hu, cls, hw]
      · have := hi.pend u; simp_all [St.to, St.rdrs]
    · intro u; by_cases hu : u = t
      · simp [St.to, St.rdrs, hu, cls, hw]
      · have := hi.held u; simp_all [St.to, St.rdrs]
    · intro u h; simp [St.to, St.rdrs, hw] at h
    · intro u; by_cases hu : u = t
      · simp [St.to, hu, rdOK]
      · have := hi.rd u; simp_all [St.to, St.rdrs]
  | read k b rest h =>
    rw [h] at hc ht hp hh
    have hl : ∀ a ∈ after body b (s.map k) ++ rest, Later a := by
      intro a ha
      rcases List.mem_append.1 ha with ha | ha
      · exact after_later _ _ _ a ha
      · exact ht a ha
    refine ⟨?_, ?_, ?_, ?_, ?_, ?_, ?_⟩
    · intro u; by_cases hu : u = t
      · subst hu
        intro a ha
        simp only [St.to, if_true] at ha
        exact hl a (List.mem_of_mem_tail ha)
      · simp [St.to, hu]; exact hi.tl u
    · intro u; by_cases hu : u = t
      · subst hu
        simp [St.to, after_count, List.count_append]
        simpa using hc
      · simp [St.to, hu]; exact hi.cnt u
    · intro u; by_cases hu : u = t
      · simp only [St.to, hu, if_true, cls_later hl]; simpa [cls] using hp
      · have := hi.pend u; simp_all [St.to]
    · intro u; by_cases hu : u = t
      · simp only [St.to, hu, if_true, cls_later hl]; simpa [cls] using hh
      · have := hi.held u; simp_all [St.to]
    · intro u h v; exact hi.excl u h v
    · intro u; by_cases hu : u = t
      · simp only [St.to, hu, if_true, rdOK_later hl]
      · have := hi.rd u; simp_all [St.to]
    · intro k'
      show s.map k' = latest m k' (s.log ++ [_])
      rw [latest_read, hi.map]
  | runlock rest h =>
    rw [h] at hc ht hp hh
    have hl : ∀ a ∈ rest, Later a := ht
    refine ⟨?_, ?_, ?_, ?_, ?_, ?_, hi.map⟩
    · intro u; by_cases hu : u = t
      · subst hu
        intro a ha
        simp only [St.to, if_true] at ha
        exact hl a (List.mem_of_mem_tail ha)
      · simp [St.to, hu]; exact hi.tl u
    · intro u; by_cases hu : u = t
      · subst hu; simp_all [St.to, St.rdrs]
      · simp [St.to, St.rdrs, hu]; exact hi.cnt u
    · intro u; by_cases hu : u = t
      · simp only [St.to, hu, if_true, cls_later hl]; simpa [cls, St.rdrs] using hp
      · have := hi.pend u; simp_all [St.to, St.rdrs]
    · intro u; by_cases hu : u = t
      · simp only [St.to, hu, if_true, cls_later hl]; simpa [cls, St.rdrs] using hh
      · have := hi.held u; simp_all [St.to, St.rdrs]
    · intro u h' v
      have := hi.excl u h' v
      by_cases hv : v = t
      · subst hv; simp [St.to, St.rdrs, this]
      · simp [St.to, St.rdrs, hv, this]
    · intro u; by_cases hu : u = t
      · simp only [St.to, hu, if_true, rdOK_later hl]
      · have := hi.rd u; simp_all [St.to, St.rdrs]

theorem inv_run {body : Nat → List (Call K)} {m : K → Option Nat} {prog n} {s : St K}
    (h : Run body m prog n s) : Inv m s := by
  induction h with
  | start => exact inv_start m prog
  | step _ hs ih => exact inv_step ih hs

/-- With converters that leave the registry alone: what a goroutine has still to do. -/
def Flat : List (Act K) → Prop
  | .rd _ _ :: .runlock :: l => ∃ p : List (Call K), l = p.map .call
  | _ :: l => ∃ p : List (Call K), l = p.map .call
  | [] => True

theorem flat_calls (p : List (Call K)) : Flat (p.map Act.call) := by
  cases p with
  | nil => trivial
  | cons c p => exact ⟨p, rfl⟩

theorem after_flat {body : Nat → List (Call K)} (hb : ∀ c, body c = []) (b : Bool) (f : Option Nat) :
    after body b f = [] := by
  cases f <;> cases b <;> simp [after, hb]

theorem flat_run {body : Nat → List (Call K)} (hb : ∀ c, body c = []) {m : K → Option Nat} {prog n} {s : St K}
    (h : Run body m prog n s) : ∀ t, Flat (s.thr t) := by
  induction h with
  | start => intro t; exact flat_calls _
  | @step n s s' t hr hs ih =>
    have ht := ih t
    have hrd := (inv_run hr).rd t
    intro u
    by_cases hu : u = t
    · subst hu
      cases hs with
      | announce o rest h hw => rw [h] at ht; simpa [St.to, Flat] using ht
      | acquire o rest h hw _ => rw [h] at ht; simpa [St.to, Flat] using ht
      | write o rest h => rw [h] at ht; simpa [St.to, Flat] using ht
      | unlock rest h =>
        rw [h] at ht; obtain ⟨p, rfl⟩ := ht
        simpa [St.to] using flat_calls p
      | rlockE k rest h hw => rw [h] at ht; simpa [St.to, Flat] using ht
      | rlockI k rest h hw => rw [h] at ht; simpa [St.to, Flat] using ht
      | read k b rest h =>
        rw [h] at ht hrd
        simp only [St.to, if_true, after_flat hb, List.nil_append]
        cases rest with
        | nil => trivial
        | cons a rest => cases a <;> simp_all [rdOK, Flat]
      | runlock rest h =>
        rw [h] at ht; obtain ⟨p, rfl⟩ := ht
        simpa [St.to] using flat_calls p
    · have : s'.thr u = s.thr u := by cases hs <;> simp [St.to, St.rdrs, hu]
      rw [this]; exact ih u

/-- Weights: how many steps an action stands for. -/
def wt : Act K → Nat
  | .call (.op _) => 4
  | .call _ => 3
  | .acq _ => 3
  | .wr _ => 2
  | .unlock => 1
  | .rd _ _ => 1
  | .runlock => 1

def work (l : List (Act K)) : Nat := (l.map wt).sum

/-- A step does one unit of the work of its goroutine, and touches no other's. -/
theorem work_step {body : Nat → List (Call K)} (hb : ∀ c, body c = []) {t : Nat} {s s' : St K}
    (hs : Step body t s s') : work (s'.thr t) + 1 = work (s.thr t) ∧ ∀ u, u ≠ t → s'.thr u = s.thr u := by
  refine ⟨?_, fun u hu => by cases hs <;> simp [St.to, St.rdrs, hu]⟩
  cases hs <;> rename_i h <;> first
    | (rename_i h' h2; rw [h']; simp [St.to, work, wt]; omega)
    | (rename_i h'; rw [h']; simp [St.to, work, wt]; omega)
    | (rw [h]; simp [St.to, work, wt, after_flat hb]; omega)

def total (N : Nat) (s : St K) : Nat := ∑ t ∈ Finset.range N, work (s.thr t)

theorem total_step {body : Nat → List (Call K)} (hb : ∀ c, body c = []) {t N : Nat} {s s' : St K}
    (hs : Step body t s s') (ht : t < N) : total N s' + 1 = total N s := by
  obtain ⟨h1, h2⟩ := work_step hb hs
  unfold total
  rw [← Finset.add_sum_erase _ _ (Finset.mem_range.2 ht),
    ← Finset.add_sum_erase _ (fun u => work (s.thr u)) (Finset.mem_range.2 ht)]
  have : ∑ u ∈ (Finset.range N).erase t, work (s'.thr u) = ∑ u ∈ (Finset.range N).erase t, work (s.thr u) := by
    refine Finset.sum_congr rfl (fun u hu => ?_)
    rw [h2 u (Finset.ne_of_mem_erase hu)]
  omega

theorem work_calls (p : List (Call K)) : work (p.map Act.call) = (p.map Call.cost).sum := by
  unfold work
  rw [List.map_map]
  congr 1
  refine List.map_congr_left (fun c _ => ?_)
  cases c <;> rfl

theorem work_zero {l : List (Act K)} (h : work l = 0) : l = [] := by
  cases l with
  | nil => rfl
  | cons a l => simp only [work, List.map_cons, List.sum_cons] at h; cases a <;> simp [wt] at h; rename_i c; cases c <;> simp [wt] at h

/-- The goroutine cannot step while a writer has announced itself and some reader is inside. -/
def Blocked : List (Act K) → Prop
  | .call _ :: _ => True
  | .acq _ :: _ => True
  | _ => False

theorem blocked_step {body : Nat → List (Call K)} {m : K → Option Nat} {u t : Nat} {s s' : St K} {v : Nat}
    (hi : Inv m s) (hw : s.w = .pend u) (hr : 0 < s.r t) (hb : Blocked (s.thr t)) (hs : Step body v s s') :
    s'.w = .pend u ∧ 0 < s'.r t ∧ ∀ x, Blocked (s.thr x) → s'.thr x = s.thr x := by
  have key : ¬ Blocked (s.thr v) := by
    intro hv
    cases hs with
    | announce o rest h h2 => rw [hw] at h2; cases h2
    | acquire o rest h _ h2 => exact absurd (h2 t) (by omega)
    | write o rest h => rw [h] at hv; exact hv
    | unlock rest h => rw [h] at hv; exact hv
    | rlockE k rest h h2 => rw [hw] at h2; cases h2
    | rlockI k rest h h2 => rw [hw] at h2; cases h2
    | read k b rest h => rw [h] at hv; exact hv
    | runlock rest h => rw [h] at hv; exact hv
  have hne : t ≠ v := fun h => key (h ▸ hb)
  have hoth : ∀ x, x ≠ v → s'.thr x = s.thr x := by intro x hx; cases hs <;> simp [St.to, St.rdrs, hx]
  refine ⟨?_, ?_, fun x hx => hoth x (fun h => key (h ▸ hx))⟩
  · cases hs with
    | announce o rest h h2 => rw [hw] at h2; cases h2
    | acquire o rest h _ h2 => exact absurd (h2 t) (by omega)
    | write o rest h => exact hw
    | unlock rest h =>
      have := (hi.held v).2 (by rw [h]; rfl)
      rw [hw] at this; cases this
    | rlockE k rest h h2 => rw [hw] at h2; cases h2
    | rlockI k rest h h2 => rw [hw] at h2; cases h2
    | read k b rest h => exact hw
    | runlock rest h => exact hw
  · have : s'.r t = s.r t := by cases hs <;> simp [St.to, St.rdrs, hne]
    omega

theorem blocked_steps {body : Nat → List (Call K)} {m : K → Option Nat} {u t : Nat} {s s' : St K}
    (hi : Inv m s) (hw : s.w = .pend u) (hr : 0 < s.r t) (hb : Blocked (s.thr t)) (hs : Steps body s s') :
    Inv m s' ∧ s'.w = .pend u ∧ 0 < s'.r t ∧ ∀ x, Blocked (s.thr x) → s'.thr x = s.thr x := by
  induction hs with
  | refl => exact ⟨hi, hw, hr, fun _ _ => rfl⟩
  | step _ h ih =>
    obtain ⟨i1, i2, i3, i4⟩ := ih
    obtain ⟨j1, j2, j3⟩ := blocked_step i1 i2 i3 (by rw [i4 t hb]; exact hb) h
    exact ⟨inv_step i1 h, j1, j2, fun x hx => by rw [j3 x (by rw [i4 x hx]; exact hx), i4 x hx]⟩

theorem inv_steps {body : Nat → List (Call K)} {m : K → Option Nat} {s s' : St K}
    (hi : Inv m s) (hs : Steps body s s') : Inv m s' := by
  induction hs with
  | refl => exact hi
  | step _ h ih => exact inv_step ih h

/-- A change asked for by a goroutine that holds the lock for reading never gets the lock. -/
theorem change_waits {body : Nat → List (Call K)} {m : K → Option Nat} {t : Nat} {s s' : St K} {o : Op K}
    {rest : List (Act K)} (hi : Inv m s) (hr : Act.runlock ∈ rest)
    (ht : s.thr t = .call (.op o) :: rest ∨ s.thr t = .acq o :: rest) (hs : Steps body s s') :
    s'.thr t = .call (.op o) :: rest ∨ s'.thr t = .acq o :: rest := by
  induction hs with
  | refl => exact ht
  | @step s1 s2 v h1 h ih =>
    have hi1 := inv_steps hi h1
    by_cases hv : t = v
    · subst hv
      have h0 : 0 < s1.r t := by
        rw [hi1.cnt t]
        rcases ih with e | e <;> rw [e] <;> simpa [List.count_pos_iff] using hr
      cases h with
      | announce o' rest' h h2 =>
        rcases ih with e | e <;> rw [e] at h <;> simp at h
        right; simp [St.to, h]
      | acquire o' rest' h _ h2 => exact absurd (h2 t) (by omega)
      | write o' rest' h => rcases ih with e | e <;> rw [e] at h <;> simp at h
      | unlock rest' h => rcases ih with e | e <;> rw [e] at h <;> simp at h
      | rlockE k rest' h h2 => rcases ih with e | e <;> rw [e] at h <;> simp at h
      | rlockI k rest' h h2 => rcases ih with e | e <;> rw [e] at h <;> simp at h
      | read k b rest' h => rcases ih with e | e <;> rw [e] at h <;> simp at h
      | runlock rest' h => rcases ih with e | e <;> rw [e] at h <;> simp at h
    · have : s2.thr t = s1.thr t := by cases h <;> simp [St.to, St.rdrs, hv]
      rw [this]; exact ih

/-- With no change anywhere, the lock is never held for writing. -/
def RO : Act K → Prop
  | .call c => c.readOnly
  | .rd _ _ => True
  | .runlock => True
  | _ => False

theorem ro_run {body : Nat → List (Call K)} {m : K → Option Nat} {prog n} {s : St K}
    (hb : ∀ c, ∀ a ∈ body c, a.readOnly) (hp : ∀ t, ∀ a ∈ prog t, a.readOnly)
    (h : Run body m prog n s) : s.w = .free ∧ ∀ t, ∀ a ∈ s.thr t, RO a := by
  induction h with
  | start =>
    refine ⟨rfl, fun t a ha => ?_⟩
    simp [start] at ha
    obtain ⟨c, hc, rfl⟩ := ha
    exact hp t c hc
  | @step n s s' t _ hs ih =>
    obtain ⟨i1, i2⟩ := ih
    have it := i2 t
    have hoth : ∀ x, x ≠ t → s'.thr x = s.thr x := by intro x hx; cases hs <;> simp [St.to, St.rdrs, hx]
    have hw : s'.w = .free := by
      cases hs with
      | announce o rest h h2 => rw [h] at it; have h1 := it _ List.mem_cons_self; exact False.elim h1
      | acquire o rest h h2 => rw [h] at it; have h1 := it _ List.mem_cons_self; exact False.elim h1
      | write o rest h => exact i1
      | unlock rest h => rfl
      | rlockE k rest h h2 => exact i1
      | rlockI k rest h h2 => exact i1
      | read k b rest h => exact i1
      | runlock rest h => exact i1
    refine ⟨hw, fun u => ?_⟩
    by_cases hu : u = t
    · subst hu
      cases hs with
      | announce o rest h h2 => rw [h] at it; have h1 := it _ List.mem_cons_self; exact False.elim h1
      | acquire o rest h h2 => rw [h] at it; have h1 := it _ List.mem_cons_self; exact False.elim h1
      | write o rest h => rw [h] at it; have h1 := it _ List.mem_cons_self; exact False.elim h1
      | unlock rest h => rw [h] at it; have h1 := it _ List.mem_cons_self; exact False.elim h1
      | rlockE k rest h h2 =>
        rw [h] at it
        intro a ha
        simp [St.to] at ha
        rcases ha with rfl | rfl | ha
        · trivial
        · trivial
        · exact it a (by simp [ha])
      | rlockI k rest h h2 =>
        rw [h] at it
        intro a ha
        simp [St.to] at ha
        rcases ha with rfl | rfl | ha
        · trivial
        · trivial
        · exact it a (by simp [ha])
      | read k b rest h =>
        rw [h] at it
        intro a ha
        simp only [St.to, if_true] at ha
        rcases List.mem_append.1 ha with ha | ha
        · cases hm : s.map k <;> cases b <;> simp [after, hm] at ha
          obtain ⟨c, hc, rfl⟩ := ha
          exact hb _ c hc
        · exact it a (by simp [ha])
      | runlock rest h =>
        rw [h] at it
        intro a ha
        simp [St.to] at ha
        exact it a (by simp [ha])
    · rw [hoth u hu]; exact i2 u

/-- With the lock free, every goroutine that has something to do can step. -/
theorem free_step {body : Nat → List (Call K)} {m : K → Option Nat} {s : St K} (hi : Inv m s) (hw : s.w = .free)
    {t : Nat} (ht : s.thr t ≠ []) : ∃ s', Step body t s s' := by
  cases h : s.thr t with
  | nil => exact absurd h ht
  | cons a rest =>
    have hp := hi.pend t
    have hh := hi.held t
    rw [hw, h] at hp hh
    cases a with
    | call c => cases c with
      | op o => exact ⟨_, .announce s o rest h hw⟩
      | exist k => exact ⟨_, .rlockE s k rest h hw⟩
      | into k => exact ⟨_, .rlockI s k rest h hw⟩
    | acq o => simp [cls] at hp
    | wr o => simp [cls] at hh
    | unlock => simp [cls] at hh
    | rd k b => exact ⟨_, .read s k b rest h⟩
    | runlock => exact ⟨_, .runlock s rest h⟩

/-- Nobody can step: a writer waits, a reader is inside, and everybody has to wait or has finished. -/
theorem no_step {body : Nat → List (Call K)} {u t : Nat} {s : St K} (hw : s.w = .pend u) (hr : 0 < s.r t)
    (hb : ∀ x, s.thr x = [] ∨ Blocked (s.thr x)) : ¬ CanStep body s := by
  rintro ⟨v, s', hs⟩
  have hv := hb v
  cases hs with
  | announce o rest h h2 => rw [hw] at h2; cases h2
  | acquire o rest h _ h2 => exact absurd (h2 t) (by omega)
  | write o rest h => rw [h] at hv; simp [Blocked] at hv
  | unlock rest h => rw [h] at hv; simp [Blocked] at hv
  | rlockE k rest h h2 => rw [hw] at h2; cases h2
  | rlockI k rest h h2 => rw [hw] at h2; cases h2
  | read k b rest h => rw [h] at hv; simp [Blocked] at hv
  | runlock rest h => rw [h] at hv; simp [Blocked] at hv

/-- The calls whose effect is still to come. -/
def toCome : List (Act K) → List (Call K)
  | [] => []
  | .call c :: l => c :: toCome l
  | .acq o :: l => .op o :: toCome l
  | .wr o :: l => .op o :: toCome l
  | .rd k run :: l => (if run then .into k else .exist k) :: toCome l
  | .unlock :: l => toCome l
  | .runlock :: l => toCome l

theorem toCome_calls (p : List (Call K)) : toCome (p.map Act.call) = p := by
  induction p with
  | nil => rfl
  | cons c p ih => simp [toCome, ih]

theorem callsOf_append (t : Nat) (l l' : List (Ev K)) : callsOf t (l ++ l') = callsOf t l ++ callsOf t l' := by
  induction l with
  | nil => rfl
  | cons e l ih => cases e <;> simp only [List.cons_append, callsOf, ih] <;> split <;> simp

theorem calls_step {body : Nat → List (Call K)} (hb : ∀ c, body c = []) {t : Nat} {s s' : St K}
    (hs : Step body t s s') (u : Nat) :
    callsOf u s'.log ++ toCome (s'.thr u) = callsOf u s.log ++ toCome (s.thr u) := by
  by_cases hu : u = t
  · subst hu
    cases hs <;> rename_i h <;> first
      | (rename_i h' h2; rw [h']; simp [St.to, St.rdrs, toCome, callsOf_append, callsOf]; done)
      | (rename_i h'; rw [h']; simp [St.to, St.rdrs, toCome, callsOf_append, callsOf]; done)
      | (rw [h]; simp [St.to, St.rdrs, toCome, callsOf_append, callsOf, after_flat hb]; done)
  · have h1 : s'.thr u = s.thr u := by cases hs <;> simp [St.to, St.rdrs, hu]
    have h2 : callsOf u s'.log = callsOf u s.log := by
      cases hs <;> simp [St.to, St.rdrs, callsOf_append, callsOf, Ne.symm hu]
    rw [h1, h2]

end Verif.ConvConc
