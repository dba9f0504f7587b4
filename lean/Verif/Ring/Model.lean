import Verif.Prelude
import Verif.Go.Basic
/-!
# Model and refinement of the ring queue `dsx/slicex/queuex`

The backing slice never escapes, so it is a list here; every access checks its bounds.
-/
namespace Verif.Ring
open Verif.Go

/-! ## Model -/

variable {T : Type} [Inhabited T]

/-- queuex.go:9-14 `Ring`. -/
structure Ring (T : Type) where
  data : List T
  cap : Int
  head : Int
  tail : Int
  deriving DecidableEq

/-- queuex.go:16-26 `New`: nil for capacity 0, `make` panics on a negative size. -/
def new (n : Int) : Outcome (Option (Ring T)) :=
  if n = 0 then .ret none
  else if n < 0 then .panic
  else .ret (some ⟨List.replicate n.toNat default, wrap64 (n + 1), 0, 0⟩)

inductive Op (T : Type) where
  | enqueue (v : T)
  | dequeue
  | head
  | cap
  | isEmpty
  | isFull
  | peek

inductive Res (T : Type) where
  | none
  | val (v : T)
  | bool (b : Bool)
  | num (n : Int)
  | panic
  deriving DecidableEq

/-- `r.data[i]`. -/
def at? (l : List T) (i : Int) : Option T := if 0 ≤ i then l[i.toNat]? else none

/-- queuex.go:54-56 `IsEmpty`. -/
def isEmpty (r : Ring T) : Bool := decide (r.head = r.tail)

/-- queuex.go:58-60 `IsFull`. Go's `%` truncates; the operands are never negative here. -/
def isFull (r : Ring T) : Bool := decide (r.head = (wrap64 (r.tail + 1)).tmod r.cap)

/-- queuex.go:28-35 `Enqueue`. -/
def enqueue (r : Ring T) (v : T) : Ring T × Res T :=
  if isFull r then (r, .bool false)
  else match at? r.data r.tail with
    | none => (r, .panic)
    | some _ =>
      ({ r with data := r.data.set r.tail.toNat v, tail := (wrap64 (r.tail + 1)).tmod r.cap }, .bool true)

/-- queuex.go:37-44 `Dequeue`. -/
def dequeue (r : Ring T) : Ring T × Res T :=
  if isEmpty r then (r, .none)
  else match at? r.data r.head with
    | none => (r, .panic)
    | some v => ({ r with head := (wrap64 (r.head + 1)).tmod r.cap }, .val v)

/-- queuex.go:46-48 `Head`. -/
def head (r : Ring T) : Ring T × Res T :=
  match at? r.data r.head with
  | none => (r, .panic)
  | some v => (r, .val v)

/-- queuex.go:62-67 `Peek`. -/
def peek (r : Ring T) : Ring T × Res T :=
  if isEmpty r then (r, .none)
  else match at? r.data r.head with
    | none => (r, .panic)
    | some v => (r, .val v)

def step (r : Ring T) : Op T → Ring T × Res T
  | .enqueue v => enqueue r v
  | .dequeue => dequeue r
  | .head => head r
  | .cap => (r, .num (wrap64 (r.cap - 1)))    -- queuex.go:50-52 `Cap`
  | .isEmpty => (r, .bool (isEmpty r))
  | .isFull => (r, .bool (isFull r))
  | .peek => peek r

/-- Run a history; a caller recovers from panics and goes on. -/
def run (r : Ring T) : List (Op T) → List (Res T)
  | [] => []
  | op :: ops => (step r op).2 :: run (step r op).1 ops

/-! ## Specification: a bounded queue -/

/-- `head` reads the element in front without a check; the specification leaves an empty queue's
`Head` free (zero value here). -/
def specStep (n : Nat) (l : List T) : Op T → List T × Res T
  | .enqueue v => if l.length < n then (l ++ [v], .bool true) else (l, .bool false)
  | .dequeue => match l with
    | [] => ([], .none)
    | x :: l => (l, .val x)
  | .head => (l, .val (l.headD default))
  | .cap => (l, .num n)
  | .isEmpty => (l, .bool (decide (l.length = 0)))
  | .isFull => (l, .bool (decide (l.length = n)))
  | .peek => (l, match l with | [] => .none | x :: _ => .val x)

def specRun (n : Nat) (l : List T) : List (Op T) → List (Res T)
  | [] => []
  | op :: ops => (specStep n l op).2 :: specRun n (specStep n l op).1 ops

/-- What really happens: `acc` counts the elements accepted so far. Once it has reached `n`, an
`Enqueue` on a queue that is not full panics without effect, and `Head` of the empty queue panics. -/
def realStep (n acc : Nat) (l : List T) : Op T → (Nat × List T) × Res T
  | .enqueue v => if acc < n then ((acc + 1, l ++ [v]), .bool true)
      else if l.length = n then ((acc, l), .bool false) else ((acc, l), .panic)
  | .head => if acc = n ∧ l = [] then ((acc, l), .panic) else ((acc, l), .val (l.headD default))
  | op => ((acc, (specStep n l op).1), (specStep n l op).2)

def realRun (n acc : Nat) (l : List T) : List (Op T) → List (Res T)
  | [] => []
  | op :: ops => (realStep n acc l op).2 :: realRun n (realStep n acc l op).1.1 (realStep n acc l op).1.2 ops

/-- The number of `Enqueue` calls in a history. -/
def enqueues : List (Op T) → Nat
  | [] => 0
  | .enqueue _ :: ops => enqueues ops + 1
  | _ :: ops => enqueues ops

/-- No `Head` in the history is made on an empty queue. -/
def HeadSafe (n : Nat) (l : List T) : List (Op T) → Prop
  | [] => True
  | op :: ops => (∀ h : op = .head, l ≠ []) ∧ HeadSafe n (specStep n l op).1 ops

/-! ## Refinement -/

structure Rep (n acc : Nat) (r : Ring T) (l : List T) : Prop where
  small : (n : Int) < 2 ^ 63 - 1
  cap : r.cap = n + 1
  dlen : r.data.length = n
  tail : r.tail = acc
  acc_le : acc ≤ n
  head : r.head + l.length = acc
  head0 : 0 ≤ r.head
  data : ∀ i, i < l.length → r.data[r.head.toNat + i]? = l[i]?
  rest : ∀ i, acc ≤ i → i < n → r.data[i]? = some default

theorem tmod_small {a b : Int} (h0 : 0 ≤ a) (h1 : a < b) : a.tmod b = a := by
  rw [Int.tmod_eq_emod_of_nonneg h0, Int.emod_eq_of_lt h0 h1]

theorem next_small {n : Nat} (hs : (n : Int) < 2 ^ 63 - 1) {a : Int} (h0 : 0 ≤ a) (h1 : a < n) :
    (wrap64 (a + 1)).tmod (n + 1) = a + 1 := by
  rw [wrap64_of_in (by unfold InInt64; omega), tmod_small (by omega) (by omega)]

theorem next_last {n : Nat} (hs : (n : Int) < 2 ^ 63 - 1) : (wrap64 ((n : Int) + 1)).tmod (n + 1) = 0 := by
  rw [wrap64_of_in (by unfold InInt64; omega)]
  simp

theorem isEmpty_spec {n acc : Nat} {r : Ring T} {l : List T} (p : Rep n acc r l) :
    isEmpty r = decide (l.length = 0) := by
  unfold isEmpty
  have := p.head; have := p.tail
  by_cases h : l.length = 0
  · simp only [h, decide_true, decide_eq_true_eq]; omega
  · simp only [h, decide_false, decide_eq_false_iff_not]; omega

theorem isFull_spec {n acc : Nat} {r : Ring T} {l : List T} (p : Rep n acc r l) (hn : 0 < n) :
    isFull r = decide (l.length = n) := by
  unfold isFull
  have h1 := p.head; have h2 := p.tail; have h3 := p.acc_le; have h4 := p.head0
  rw [p.cap, h2]
  by_cases hlt : acc < n
  · rw [next_small p.small (by omega) (by omega)]
    simp only [decide_eq_decide]
    omega
  · have e : acc = n := by omega
    subst e
    rw [next_last p.small]
    simp only [decide_eq_decide]
    omega

theorem at_head {n acc : Nat} {r : Ring T} {x : T} {l : List T} (p : Rep n acc r (x :: l)) :
    at? r.data r.head = some x := by
  have := p.data 0 (by simp)
  simp only [at?, p.head0, if_true]
  simpa using this

theorem step_rep {n acc : Nat} {r : Ring T} {l : List T} (p : Rep n acc r l) (hn : 0 < n) (op : Op T) :
    (step r op).2 = (realStep n acc l op).2 ∧
      Rep n (realStep n acc l op).1.1 (step r op).1 (realStep n acc l op).1.2 := by
  have h1 := p.head; have h2 := p.tail; have h3 := p.acc_le; have h4 := p.head0
  cases op with
  | enqueue v =>
    simp only [step, enqueue, isFull_spec p hn, realStep]
    by_cases hlt : acc < n
    · have hat : at? r.data r.tail = some default := by
        simp only [at?, h2]
        rw [if_pos (by omega)]
        exact p.rest acc (Nat.le_refl _) hlt
      rw [if_pos hlt, if_neg (by simp; omega), hat]
      refine ⟨rfl, p.small, p.cap, by simp [p.dlen], ?_, by simp only; omega, ?_, h4, ?_, ?_⟩
      · rw [p.cap, h2, next_small p.small (by omega) (by omega)]; simp
      · simp; omega
      · intro i hi
        simp only [List.length_append, List.length_singleton] at hi
        simp only [h2, Int.toNat_natCast]
        rw [List.getElem?_set]
        by_cases hil : i < l.length
        · rw [if_neg (by omega), List.getElem?_append_left hil, p.data i hil]
        · have : i = l.length := by omega
          subst this
          rw [if_pos (by omega), if_pos (by rw [p.dlen]; omega)]
          simp
      · intro i hi1 hi2
        simp only at hi1
        simp only [h2, Int.toNat_natCast]
        rw [List.getElem?_set_ne (by omega)]
        exact p.rest i (by omega) hi2
    · have e : acc = n := by omega
      rw [if_neg hlt]
      by_cases hfull : l.length = n
      · simp only [hfull, decide_true, if_true]
        exact ⟨trivial, p⟩
      · have hat : at? r.data r.tail = none := by
          simp only [at?, h2]
          rw [if_pos (by omega), List.getElem?_eq_none (by rw [p.dlen]; omega)]
        simp only [hfull, decide_false, if_false, hat]
        exact ⟨rfl, p⟩
  | dequeue =>
    simp only [step, dequeue, isEmpty_spec p, realStep, specStep]
    cases l with
    | nil => exact ⟨rfl, p⟩
    | cons x l =>
      rw [at_head p]
      simp only [List.length_cons] at h1
      refine ⟨rfl, p.small, p.cap, p.dlen, h2, h3, ?_, ?_, ?_, p.rest⟩
      · simp only [List.length_cons, Nat.add_eq_zero_iff, one_ne_zero, and_false, decide_false,
          Bool.false_eq_true, if_false]
        rw [p.cap, next_small p.small h4 (by omega)]; omega
      · simp only [List.length_cons, Nat.add_eq_zero_iff, one_ne_zero, and_false, decide_false,
          Bool.false_eq_true, if_false]
        rw [p.cap, next_small p.small h4 (by omega)]; omega
      · simp only [List.length_cons, Nat.add_eq_zero_iff, one_ne_zero, and_false, decide_false,
          Bool.false_eq_true, if_false]
        rw [p.cap, next_small p.small h4 (by omega)]
        intro i hi
        have := p.data (i + 1) (by simp; omega)
        rw [List.getElem?_cons_succ] at this
        rw [← this]
        congr 1
        omega
  | head =>
    simp only [step, head, realStep]
    cases l with
    | nil =>
      simp only [List.length_nil, Nat.cast_zero, add_zero] at h1
      by_cases e : acc = n
      · have hat : at? r.data r.head = none := by
          simp only [at?, h1]
          rw [if_pos (by omega), List.getElem?_eq_none (by rw [p.dlen]; omega)]
        rw [if_pos ⟨e, rfl⟩, hat]
        exact ⟨rfl, p⟩
      · have hat : at? r.data r.head = some default := by
          simp only [at?, h1]
          rw [if_pos (by omega)]
          exact p.rest acc (Nat.le_refl _) (by omega)
        rw [if_neg (by simp [e]), hat]
        exact ⟨rfl, p⟩
    | cons x l =>
      rw [at_head p, if_neg (by simp)]
      exact ⟨rfl, p⟩
  | cap =>
    have := p.small
    simp only [step, realStep, specStep, p.cap, Int.add_sub_cancel]
    rw [wrap64_of_in (by unfold InInt64; omega)]
    exact ⟨rfl, p⟩
  | isEmpty => simp only [step, realStep, specStep, isEmpty_spec p]; exact ⟨trivial, p⟩
  | isFull => simp only [step, realStep, specStep, isFull_spec p hn]; exact ⟨trivial, p⟩
  | peek =>
    simp only [step, peek, isEmpty_spec p, realStep, specStep]
    cases l with
    | nil => exact ⟨rfl, p⟩
    | cons x l => rw [at_head p]; exact ⟨rfl, p⟩

theorem run_rep {n acc : Nat} {r : Ring T} {l : List T} (p : Rep n acc r l) (hn : 0 < n) (ops : List (Op T)) :
    run r ops = realRun n acc l ops := by
  induction ops generalizing acc r l with
  | nil => rfl
  | cons op ops ih =>
    obtain ⟨e, p'⟩ := step_rep p hn op
    simp only [run, realRun, e, ih p']

theorem real_eq_spec {n acc : Nat} {l : List T} (hl : l.length ≤ acc) (ops : List (Op T))
    (h : acc + enqueues ops ≤ n) (hs : HeadSafe n l ops) : realRun n acc l ops = specRun n l ops := by
  induction ops generalizing acc l with
  | nil => rfl
  | cons op ops ih =>
    cases op with
    | enqueue v =>
      simp only [enqueues] at h
      have hlt : acc < n := by omega
      have hs2 := hs.2
      simp only [realRun, specRun, realStep, specStep, if_pos hlt, if_pos (show l.length < n by omega)] at hs2 ⊢
      rw [ih (by simp; omega) (by omega) hs2]
    | head =>
      have hne := hs.1 rfl
      have hs2 := hs.2
      simp only [realRun, specRun, realStep, specStep, if_neg (show ¬(acc = n ∧ l = []) by simp [hne])] at hs2 ⊢
      rw [ih hl h hs2]
    | dequeue =>
      have hs2 := hs.2
      simp only [realRun, specRun, realStep]
      rw [ih _ h hs2]
      cases l with
      | nil => exact hl
      | cons x l => simp only [specStep]; simp only [List.length_cons] at hl; omega
    | cap => simp only [realRun, specRun, realStep, specStep]; rw [ih hl h hs.2]
    | isEmpty => simp only [realRun, specRun, realStep, specStep]; rw [ih hl h hs.2]
    | isFull => simp only [realRun, specRun, realStep, specStep]; rw [ih hl h hs.2]
    | peek => simp only [realRun, specRun, realStep, specStep]; rw [ih hl h hs.2]

theorem new_rep {n : Int} (h0 : 0 < n) (h1 : n < 2 ^ 63 - 1) :
    ∃ r : Ring T, new n = .ret (some r) ∧ Rep n.toNat 0 r [] := by
  refine ⟨_, by rw [new, if_neg (by omega), if_neg (by omega)], ?_⟩
  refine ⟨by omega, ?_, by simp, rfl, by omega, rfl, by simp, by simp, ?_⟩
  · simp only
    rw [wrap64_of_in (by unfold InInt64; omega)]; omega
  · intro i _ hi
    simp [hi]

end Verif.Ring
