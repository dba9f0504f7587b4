import Verif.Linked.Heap
/-!
# The linked stack `dsx/linkedx/stackx`: model, specification, refinement
-/
set_option linter.unusedSectionVars false
namespace Verif.Linked.Stack
open Verif.Linked

/-! ## Model -/

variable {T : Type} [Inhabited T]

/-- stackx.go:16-20 `Stack`. -/
structure Stack (T : Type) where
  mem : Mem (Node T)
  head : Option Nat
  length : Int

/-- stackx.go:22-30 `New`. -/
def new : Stack T := ⟨Mem.empty, none, 0⟩

/-- The methods; `push` carries the choice of `pool.Get`. -/
inductive Op (T : Type) where
  | push (v : T) (choice : Option Nat)
  | pop
  | peek
  | len

/-- stackx.go:32-39 `Push`. -/
def push (s : Stack T) (v : T) (choice : Option Nat) : Stack T × Res T :=
  let (n, m) := s.mem.get choice
  (⟨(m.setData n v).setNext n s.head, some n, s.length + 1⟩, .bool true)

/-- stackx.go:41-49 `Pop`. The state at the moment of the nil dereference is what a recovering
caller sees. -/
def pop (s : Stack T) : Stack T × Res T :=
  match s.head with
  | none => (s, .none)
  | some a =>
    let s' : Stack T := ⟨s.mem.put a, ((s.mem.put a).node a).next, s.length - 1⟩
    match s'.head with
    | none => (s', .panic)
    | some b => (s', .val (s'.mem.node b).data)

/-- stackx.go:51-56 `Peek`. -/
def peek (s : Stack T) : Stack T × Res T :=
  match s.head with
  | none => (s, .none)
  | some a => (s, .val (s.mem.node a).data)

/-- stackx.go:58-60 `Len`. -/
def len (s : Stack T) : Stack T × Res T := (s, .num s.length)

def step (s : Stack T) : Op T → Stack T × Res T
  | .push v c => push s v c
  | .pop => pop s
  | .peek => peek s
  | .len => len s

/-- Run a history; the results in order. A caller recovers from panics and goes on. -/
def run (s : Stack T) : List (Op T) → List (Res T)
  | [] => []
  | op :: ops => (step s op).2 :: run (step s op).1 ops

/-! ## Specification -/

/-- A stack is the list of its elements, top first. -/
def specStep (l : List T) : Op T → List T × Res T
  | .push v _ => (v :: l, .bool true)
  | .pop => match l with
    | [] => ([], .none)
    | x :: l => (l, .val x)
  | .peek => (l, match l with | [] => .none | x :: _ => .val x)
  | .len => (l, .num l.length)

def specRun (l : List T) : List (Op T) → List (Res T)
  | [] => []
  | op :: ops => (specStep l op).2 :: specRun (specStep l op).1 ops

/-- What `Pop` really shows: the element below the removed one, or a panic if there is none. -/
def shownStep (l : List T) (op : Op T) : Res T :=
  match op, l with
  | .pop, [_] => .panic
  | .pop, _ :: y :: _ => .val y
  | op, l => (specStep l op).2

def shownRun (l : List T) : List (Op T) → List (Res T)
  | [] => []
  | op :: ops => shownStep l op :: shownRun (specStep l op).1 ops

/-! ## Refinement -/

/-- The nodes from `p` on are `ns` and end with nil. -/
def Seg (m : Mem (Node T)) : Option Nat → List Nat → Prop
  | p, [] => p = none
  | p, a :: ns => p = some a ∧ Seg m (m.node a).next ns

theorem Seg.congr {m m' : Mem (Node T)} : ∀ {ns : List Nat} {p : Option Nat}, Seg m p ns →
    (∀ a ∈ ns, (m'.node a).next = (m.node a).next) → Seg m' p ns
  | [], _, h, _ => h
  | a :: ns, p, h, e => ⟨h.1, by rw [e a (by simp)]; exact h.2.congr (fun b hb => e b (by simp [hb]))⟩

structure Rep (s : Stack T) (l : List T) (ns : List Nat) : Prop where
  live : Live s.mem ns
  seg : Seg s.mem s.head ns
  data : l = ns.map fun a => (s.mem.node a).data
  len : s.length = l.length

theorem step_rep {s : Stack T} {l : List T} {ns : List Nat} (r : Rep s l ns) (op : Op T) :
    (step s op).2 = shownStep l op ∧ ∃ ns', Rep (step s op).1 (specStep l op).1 ns' := by
  cases op with
  | push v c =>
    have hg := get_spec s.mem c r.live
    simp only [step, push, specStep, shownStep]
    generalize hgc : s.mem.get c = g at hg
    obtain ⟨n, m⟩ := g
    simp only at hg ⊢
    refine ⟨trivial, n :: ns, ?_, ?_, ?_, ?_⟩
    · exact (hg.1.setData n v).setNext n s.head
    · have hn := List.nodup_cons.1 hg.1.nodup
      refine ⟨rfl, ?_⟩
      rw [setNext_same]
      refine r.seg.congr (fun a ha => ?_)
      have hne : a ≠ n := fun e => hn.1 (e ▸ ha)
      rw [setNext_ne _ _ hne, setData_next, hg.2 a ha]
    · have hn := List.nodup_cons.1 hg.1.nodup
      simp only [List.map_cons, setNext_data, setData_same, r.data]
      congr 1
      refine List.map_congr_left (fun a ha => ?_)
      have hne : a ≠ n := fun e => hn.1 (e ▸ ha)
      rw [setData_ne _ _ hne, hg.2 a ha]
    · simp [r.len]
  | pop =>
    cases ns with
    | nil =>
      have hh : s.head = none := r.seg
      have hl : l = [] := by simpa using r.data
      subst hl
      simp only [step, pop, hh, shownStep, specStep]
      exact ⟨trivial, [], r⟩
    | cons a ns =>
      have hh : s.head = some a := r.seg.1
      have hs := r.seg.2
      have hl : l = (s.mem.node a).data :: ns.map fun a => (s.mem.node a).data := by simpa using r.data
      have hlen := r.len
      subst hl
      have hrep : Rep (⟨s.mem.put a, ((s.mem.put a).node a).next, s.length - 1⟩ : Stack T)
          (ns.map fun a => (s.mem.node a).data) ns :=
        ⟨put_spec r.live, hs.congr (fun _ _ => rfl), rfl, by simp at hlen ⊢; omega⟩
      cases ns with
      | nil =>
        have hn : (s.mem.node a).next = none := hs
        simp only [step, pop, hh, put_node, hn, shownStep, specStep, List.map_nil]
        refine ⟨trivial, [], ?_⟩
        simpa [hn] using hrep
      | cons b ns =>
        have hn : (s.mem.node a).next = some b := hs.1
        simp only [step, pop, hh, put_node, hn, shownStep, specStep, List.map_cons]
        refine ⟨trivial, b :: ns, ?_⟩
        simpa [hn] using hrep
  | peek =>
    cases ns with
    | nil =>
      have hh : s.head = none := r.seg
      have hl : l = [] := by simpa using r.data
      subst hl
      simp only [step, peek, hh, shownStep, specStep]
      exact ⟨trivial, [], r⟩
    | cons a ns =>
      have hh : s.head = some a := r.seg.1
      have hl : l = (s.mem.node a).data :: ns.map fun a => (s.mem.node a).data := by simpa using r.data
      subst hl
      simp only [step, peek, hh, shownStep, specStep]
      exact ⟨trivial, a :: ns, r⟩
  | len =>
    refine ⟨?_, ns, r⟩
    simp [step, len, shownStep, specStep, r.len]

theorem run_rep {s : Stack T} {l : List T} {ns : List Nat} (r : Rep s l ns) (ops : List (Op T)) :
    run s ops = shownRun l ops := by
  induction ops generalizing s l ns with
  | nil => rfl
  | cons op ops ih =>
    obtain ⟨h, ns', r'⟩ := step_rep r op
    simp only [run, shownRun, h, ih r']

theorem new_rep : Rep (new : Stack T) [] [] := ⟨Live.empty, rfl, rfl, rfl⟩

end Verif.Linked.Stack
