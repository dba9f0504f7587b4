import Verif.Linked.Heap
/-!
# The linked queue `dsx/linkedx/queuex`: model, specification, refinement
-/
set_option linter.unusedSectionVars false
namespace Verif.Linked.Queue
open Verif.Linked

/-! ## Model -/

variable {T : Type} [Inhabited T]

/-- queuex.go:16-20 `Queue`. -/
structure Queue (T : Type) where
  mem : Mem (Node T)
  head : Option Nat
  tail : Option Nat

/-- queuex.go:22-30 `New`. -/
def new : Queue T := ⟨Mem.empty, none, none⟩

/-- The methods; `enqueue` carries the choice of `pool.Get`. -/
inductive Op (T : Type) where
  | enqueue (v : T) (choice : Option Nat)
  | dequeue
  | peek
  | isEmpty

/-- queuex.go:32-43 `Enqueue`. The recycled node's `next` is not reset. -/
def enqueue (q : Queue T) (v : T) (choice : Option Nat) : Queue T × Res T :=
  let (n, m) := q.mem.get choice
  let m := m.setData n v
  match q.head with
  | none => (⟨m, some n, some n⟩, .bool true)
  | some _ =>
    match q.tail with
    | none => (⟨m, q.head, q.tail⟩, .panic)
    | some t => (⟨m.setNext t (some n), q.head, some n⟩, .bool true)

/-- queuex.go:45-52 `Dequeue`. -/
def dequeue (q : Queue T) : Queue T × Res T :=
  match q.head with
  | none => (q, .none)
  | some a =>
    let q' : Queue T := ⟨q.mem.put a, ((q.mem.put a).node a).next, q.tail⟩
    match q'.head with
    | none => (q', .panic)
    | some b => (q', .val (q'.mem.node b).data)

/-- queuex.go:54-59 `Peek`. -/
def peek (q : Queue T) : Queue T × Res T :=
  match q.head with
  | none => (q, .none)
  | some a => (q, .val (q.mem.node a).data)

/-- queuex.go:61-63 `IsEmpty`. -/
def isEmpty (q : Queue T) : Queue T × Res T := (q, .bool q.head.isNone)

def step (q : Queue T) : Op T → Queue T × Res T
  | .enqueue v c => enqueue q v c
  | .dequeue => dequeue q
  | .peek => peek q
  | .isEmpty => isEmpty q

/-- Run a history; the results in order. A caller recovers from panics and goes on. -/
def run (q : Queue T) : List (Op T) → List (Res T)
  | [] => []
  | op :: ops => (step q op).2 :: run (step q op).1 ops

/-! ## Specification -/

/-- A queue is the list of its elements, front first. -/
def specStep (l : List T) : Op T → List T × Res T
  | .enqueue v _ => (l ++ [v], .bool true)
  | .dequeue => match l with
    | [] => ([], .none)
    | x :: l => (l, .val x)
  | .peek => (l, match l with | [] => .none | x :: _ => .val x)
  | .isEmpty => (l, .bool l.isEmpty)

def specRun (l : List T) : List (Op T) → List (Res T)
  | [] => []
  | op :: ops => (specStep l op).2 :: specRun (specStep l op).1 ops

/-- What `Dequeue` really shows on two or more elements: the one behind the removed one. -/
def shownStep (l : List T) (op : Op T) : Res T :=
  match op, l with
  | .dequeue, _ :: y :: _ => .val y
  | op, l => (specStep l op).2

def shownRun (l : List T) : List (Op T) → List (Res T)
  | [] => []
  | op :: ops => shownStep l op :: shownRun (specStep l op).1 ops

/-- No `Dequeue` in the history is made on a queue that should hold exactly one element. -/
def KeepsOne (l : List T) : List (Op T) → Prop
  | [] => True
  | op :: ops => (op = .dequeue → l.length ≠ 1) ∧ KeepsOne (specStep l op).1 ops

/-! ## Refinement -/

/-- Every node of `ns` but the last points to the following one; the last one's `next` is free. -/
def Link (m : Mem (Node T)) : List Nat → Prop
  | [] => True
  | [_] => True
  | a :: b :: ns => (m.node a).next = some b ∧ Link m (b :: ns)

theorem Link.congr {m m' : Mem (Node T)} : ∀ {ns : List Nat}, Link m ns →
    (∀ a ∈ ns, (m'.node a).next = (m.node a).next) → Link m' ns
  | [], _, _ => trivial
  | [_], _, _ => trivial
  | a :: b :: ns, h, e => ⟨by rw [e a (by simp)]; exact h.1, h.2.congr (fun c hc => e c (by simp at hc ⊢; tauto))⟩

theorem Link.snoc {m : Mem (Node T)} : ∀ {ns : List Nat} {t n : Nat}, Link m (ns ++ [t]) →
    (ns ++ [t]).Nodup → n ∉ ns ++ [t] → Link (m.setNext t (some n)) (ns ++ [t, n])
  | [], t, n, _, _, _ => ⟨setNext_same _ _ _, trivial⟩
  | [a], t, n, h, nd, hn => by
    have : a ≠ t := by simp at nd; exact nd
    exact ⟨by rw [setNext_ne _ _ this]; exact h.1, setNext_same _ _ _, trivial⟩
  | a :: b :: ns, t, n, h, nd, hn => by
    have hne : a ≠ t := by
      rintro rfl
      simp at nd
    have ih := Link.snoc (m := m) (ns := b :: ns) (t := t) (n := n) h.2 (List.nodup_cons.1 nd).2
      (fun hx => hn (by simp at hx ⊢; tauto))
    exact ⟨by rw [setNext_ne _ _ hne]; exact h.1, ih⟩

structure Rep (q : Queue T) (l : List T) (ns : List Nat) : Prop where
  live : Live q.mem ns
  head : q.head = ns.head?
  tail : ns ≠ [] → q.tail = ns.getLast?
  link : Link q.mem ns
  data : l = ns.map fun a => (q.mem.node a).data

theorem step_rep {q : Queue T} {l : List T} {ns : List Nat} (r : Rep q l ns) (op : Op T)
    (hop : op = .dequeue → l.length ≠ 1) :
    (step q op).2 = shownStep l op ∧ ∃ ns', Rep (step q op).1 (specStep l op).1 ns' := by
  cases op with
  | enqueue v c =>
    have hg := get_spec q.mem c r.live
    simp only [step, enqueue, specStep, shownStep]
    generalize hgc : q.mem.get c = g at hg
    obtain ⟨n, m⟩ := g
    simp only at hg ⊢
    have hn := List.nodup_cons.1 hg.1.nodup
    induction ns using List.reverseRecOn with
    | nil =>
      have hl : l = [] := by simpa using r.data
      have hh : q.head = none := by simpa using r.head
      subst hl
      simp only [hh]
      refine ⟨trivial, [n], hg.1.setData n v, rfl, fun _ => rfl, trivial, ?_⟩
      simp [setData_same]
    | append_singleton ns t _ =>
      have ht : q.tail = some t := by simpa using r.tail (by simp)
      have hh : ∃ a, q.head = some a := by
        rw [r.head]
        cases ns <;> simp
      obtain ⟨a, ha⟩ := hh
      simp only [ha, ht]
      refine ⟨trivial, ns ++ [t, n], ?_, ?_, ?_, ?_, ?_⟩
      · have := ((hg.1.setData n v).setNext t (some n))
        refine this.perm ?_
        have : (ns ++ [t, n]) = (ns ++ [t]) ++ [n] := by simp
        rw [this]
        exact (List.perm_append_singleton n (ns ++ [t])).symm
      · show some a = _
        rw [← ha, r.head]
        cases ns <;> rfl
      · intro _
        simp
      · refine Link.snoc ?_ r.live.nodup hn.1
        exact r.link.congr (fun b hb => by rw [setData_next, hg.2 b hb])
      · have e : ns ++ [t, n] = (ns ++ [t]) ++ [n] := by simp
        rw [e, List.map_append, r.data]
        simp only [setNext_data, List.map_cons, List.map_nil, setData_same]
        congr 1
        refine List.map_congr_left (fun b hb => ?_)
        have hne : b ≠ n := fun e => hn.1 (e ▸ hb)
        rw [setData_ne _ _ hne, hg.2 b hb]
  | dequeue =>
    cases ns with
    | nil =>
      have hh : q.head = none := by simpa using r.head
      have hl : l = [] := by simpa using r.data
      subst hl
      simp only [step, dequeue, hh, shownStep, specStep]
      exact ⟨trivial, [], r⟩
    | cons a ns =>
      have hh : q.head = some a := by simpa using r.head
      cases ns with
      | nil => exact absurd (by rw [r.data]; rfl) (hop rfl)
      | cons b ns =>
        have hl : l = (q.mem.node a).data :: (q.mem.node b).data :: ns.map fun a => (q.mem.node a).data := by
          simpa using r.data
        subst hl
        have hn : (q.mem.node a).next = some b := r.link.1
        simp only [step, dequeue, hh, put_node, hn, shownStep, specStep]
        refine ⟨trivial, b :: ns, put_spec r.live, rfl, ?_, ?_, rfl⟩
        · intro _
          rw [r.tail (by simp)]
          simp
        · exact r.link.2.congr (fun _ _ => rfl)
  | peek =>
    cases ns with
    | nil =>
      have hh : q.head = none := by simpa using r.head
      have hl : l = [] := by simpa using r.data
      subst hl
      simp only [step, peek, hh, shownStep, specStep]
      exact ⟨trivial, [], r⟩
    | cons a ns =>
      have hh : q.head = some a := by simpa using r.head
      have hl : l = (q.mem.node a).data :: ns.map fun a => (q.mem.node a).data := by simpa using r.data
      subst hl
      simp only [step, peek, hh, shownStep, specStep]
      exact ⟨trivial, a :: ns, r⟩
  | isEmpty =>
    refine ⟨?_, ns, r⟩
    simp only [step, isEmpty, shownStep, specStep, r.head, r.data]
    cases ns <;> rfl

theorem run_rep {q : Queue T} {l : List T} {ns : List Nat} (r : Rep q l ns) (ops : List (Op T))
    (h : KeepsOne l ops) : run q ops = shownRun l ops := by
  induction ops generalizing q l ns with
  | nil => rfl
  | cons op ops ih =>
    obtain ⟨e, ns', r'⟩ := step_rep r op h.1
    simp only [run, shownRun, e, ih r' h.2]

theorem new_rep : Rep (new : Queue T) [] [] := ⟨Live.empty, rfl, fun h => absurd rfl h, trivial, rfl⟩

/-! ## New nodes only -/

/-- The pool hands out a new node, as it may always do. -/
def Op.fresh : Op T → Prop
  | .enqueue _ c => c = none
  | _ => True

/-- What is really shown on any number of elements when nodes are not recycled: `Dequeue` of the last element
panics, after taking it. -/
def exactStep (l : List T) (op : Op T) : Res T :=
  match op, l with
  | .dequeue, [_] => .panic
  | op, l => shownStep l op

def exactRun (l : List T) : List (Op T) → List (Res T)
  | [] => []
  | op :: ops => exactStep l op :: exactRun (specStep l op).1 ops

theorem step_fresh {q : Queue T} {l : List T} {ns : List Nat} (r : Rep q l ns)
    (hlast : ∀ t ∈ ns.getLast?, (q.mem.node t).next = none) (op : Op T) (hop : op.fresh) :
    (step q op).2 = exactStep l op ∧ ∃ ns', Rep (step q op).1 (specStep l op).1 ns' ∧
      ∀ t ∈ ns'.getLast?, ((step q op).1.mem.node t).next = none := by
  cases op with
  | enqueue v c =>
    have hc : c = none := hop
    subst hc
    have hg := get_spec q.mem none r.live
    have hnx : ((q.mem.get none).2.node (q.mem.get none).1).next = none := by simp [Mem.get]; rfl
    simp only [step, enqueue, specStep, exactStep, shownStep]
    generalize hgc : q.mem.get none = g at hg hnx
    obtain ⟨n, m⟩ := g
    simp only at hg hnx ⊢
    have hn := List.nodup_cons.1 hg.1.nodup
    have hnx : (m.node n).next = none := hnx
    induction ns using List.reverseRecOn with
    | nil =>
      have hl : l = [] := by simpa using r.data
      have hh : q.head = none := by simpa using r.head
      subst hl
      simp only [hh]
      refine ⟨trivial, [n], ⟨hg.1.setData n v, rfl, fun _ => rfl, trivial, ?_⟩, ?_⟩
      · simp [setData_same]
      · intro t ht
        simp only [List.getLast?_singleton, Option.mem_def, Option.some.injEq] at ht
        subst ht
        rw [setData_next]; exact hnx
    | append_singleton ns t _ =>
      have ht : q.tail = some t := by simpa using r.tail (by simp)
      have hh : ∃ a, q.head = some a := by
        rw [r.head]
        cases ns <;> simp
      obtain ⟨a, ha⟩ := hh
      simp only [ha, ht]
      refine ⟨trivial, ns ++ [t, n], ⟨?_, ?_, ?_, ?_, ?_⟩, ?_⟩
      · have := ((hg.1.setData n v).setNext t (some n))
        refine this.perm ?_
        have : (ns ++ [t, n]) = (ns ++ [t]) ++ [n] := by simp
        rw [this]
        exact (List.perm_append_singleton n (ns ++ [t])).symm
      · show some a = _
        rw [← ha, r.head]
        cases ns <;> rfl
      · intro _
        simp
      · refine Link.snoc ?_ r.live.nodup hn.1
        exact r.link.congr (fun b hb => by rw [setData_next, hg.2 b hb])
      · have e : ns ++ [t, n] = (ns ++ [t]) ++ [n] := by simp
        rw [e, List.map_append, r.data]
        simp only [setNext_data, List.map_cons, List.map_nil, setData_same]
        congr 1
        refine List.map_congr_left (fun b hb => ?_)
        have hne : b ≠ n := fun e => hn.1 (e ▸ hb)
        rw [setData_ne _ _ hne, hg.2 b hb]
      · intro x hx
        simp only [List.getLast?_append, List.getLast?_cons_cons, List.getLast?_singleton, Option.some_or,
          Option.mem_def, Option.some.injEq] at hx
        subst hx
        have hne : n ≠ t := fun e => hn.1 (by simp [e])
        rw [setNext_ne _ _ hne, setData_next]; exact hnx
  | dequeue =>
    by_cases h1 : l.length = 1
    · obtain ⟨x, rfl⟩ := List.length_eq_one_iff.1 h1
      have hlen : ns.length = 1 := by have := congrArg List.length r.data; simpa using this.symm
      obtain ⟨a, rfl⟩ := List.length_eq_one_iff.1 hlen
      have hh : q.head = some a := by simpa using r.head
      have hn : (q.mem.node a).next = none := hlast a (by simp)
      simp only [step, dequeue, hh, put_node, hn, exactStep, specStep]
      refine ⟨trivial, [], ⟨put_spec r.live, rfl, fun h => absurd rfl h, trivial, rfl⟩, by simp⟩
    · obtain ⟨e, ns', r'⟩ := step_rep r .dequeue (fun _ => h1)
      refine ⟨?_, ?_⟩
      · rw [e]
        rcases l with _ | ⟨x, _ | ⟨y, l⟩⟩
        · rfl
        · exact absurd rfl h1
        · rfl
      · cases ns with
        | nil =>
          have hh : q.head = none := by simpa using r.head
          have hl : l = [] := by simpa using r.data
          subst hl
          simp only [step, dequeue, hh, specStep]
          exact ⟨[], r, by simp⟩
        | cons a ns =>
          have hh : q.head = some a := by simpa using r.head
          cases ns with
          | nil => exact absurd (by rw [r.data]; rfl) h1
          | cons b ns =>
            have hl : l = (q.mem.node a).data :: (q.mem.node b).data :: ns.map fun a => (q.mem.node a).data := by
              simpa using r.data
            subst hl
            have hn : (q.mem.node a).next = some b := r.link.1
            simp only [step, dequeue, hh, put_node, hn, specStep]
            refine ⟨b :: ns, ⟨put_spec r.live, rfl, ?_, ?_, rfl⟩, ?_⟩
            · intro _
              rw [r.tail (by simp)]
              simp
            · exact r.link.2.congr (fun _ _ => rfl)
            · intro t ht
              exact hlast t (by rwa [List.getLast?_cons_cons])
  | peek =>
    obtain ⟨e, -⟩ := step_rep r .peek (by simp)
    have hq : (step q .peek).1 = q := by simp only [step, peek]; split <;> rfl
    refine ⟨e, ns, ?_, ?_⟩ <;> rw [hq]
    · exact r
    · exact hlast
  | isEmpty =>
    obtain ⟨e, -⟩ := step_rep r .isEmpty (by simp)
    exact ⟨e, ns, r, hlast⟩

theorem run_fresh {q : Queue T} {l : List T} {ns : List Nat} (r : Rep q l ns)
    (hlast : ∀ t ∈ ns.getLast?, (q.mem.node t).next = none) (ops : List (Op T)) (h : ∀ op ∈ ops, op.fresh) :
    run q ops = exactRun l ops := by
  induction ops generalizing q l ns with
  | nil => rfl
  | cons op ops ih =>
    obtain ⟨e, ns', r', hl'⟩ := step_fresh r hlast op (h op (by simp))
    simp only [run, exactRun, e, ih r' hl' (fun o ho => h o (by simp [ho]))]

end Verif.Linked.Queue
