import Verif.ZeroVal.Spec
import Verif.SliceC.Props
/-!
# Property C118: the zero value of a container
-/
namespace Verif.ZeroVal
open Verif.Go

/-- **C118 (full statement).** A container that was declared and not made shows what an empty one
made by `New` shows. -/
def C118_full : Prop :=
  QueueAsNew ∧ DequeAsNew ∧ StackAsNew ∧ ListAsNew ∧ RingAsNew ∧ SliceStackAsNew ∧ MapAsNew ∧
    SklAsNew ∧ OrdAsNew

/-! ## What really happens, for every history -/
section linked
open Verif.Linked
variable {T : Type} [Inhabited T]

/-- Nothing ever gets into the queue. -/
theorem C118_queue (ops : List (Queue.Op T)) : queueRun queueZero ops = ops.map queueShown := by
  induction ops with
  | nil => rfl
  | cons op ops ih =>
    have h : queueStep (queueZero : Queue.Queue T) op = (queueZero, queueShown op) := by
      cases op with
      | enqueue v c => cases c <;> rfl
      | _ => rfl
    simp only [queueRun, h, ih, List.map_cons]

theorem C118_deque (ops : List (Deque.Op T)) : dequeRun dequeZero ops = ops.map dequeShown := by
  induction ops with
  | nil => rfl
  | cons op ops ih =>
    have h : dequeStep (dequeZero : Deque.Deque T) op = (dequeZero, dequeShown op) := by
      cases op with
      | pushFront v c => cases c <;> rfl
      | pushBack v c => cases c <;> rfl
      | _ => rfl
    simp only [dequeRun, h, ih, List.map_cons]

theorem stack_from (ops : List (Stack.Op T)) (n : Nat) :
    stackRun ⟨Mem.empty, none, n⟩ ops = stackShown n ops := by
  induction ops generalizing n with
  | nil => rfl
  | cons op ops ih =>
    cases op with
    | push v c => exact congrArg (Res.panic :: ·) (ih (n + 1))
    | pop => exact congrArg (Res.none :: ·) (ih n)
    | peek => exact congrArg (Res.none :: ·) (ih n)
    | len => exact congrArg (Res.num n :: ·) (ih n)

/-- Nothing ever gets into the stack; `Len` counts the attempts. -/
theorem C118_stack (ops : List (Stack.Op T)) : stackRun stackZero ops = stackShown 0 ops :=
  stack_from ops 0

theorem list_remove (n i : Int) :
    LList.remove (⟨Mem.empty, none, none, n⟩ : LList.LL T) i = (⟨Mem.empty, none, none, n - 1⟩, .none) := by
  unfold LList.remove
  by_cases h : i = 0
  · simp [h]
  · simp [h, LList.steps, LList.walk]

theorem list_from (ops : List (LList.Op T)) (n : Int) :
    listRun ⟨Mem.empty, none, none, n⟩ ops = listShown n ops := by
  induction ops generalizing n with
  | nil => rfl
  | cons op ops ih =>
    cases op with
    | append v c => exact congrArg (Res.panic :: ·) (ih (n + 1))
    | insert i v c => exact congrArg (Res.panic :: ·) (ih (n + 1))
    | remove i =>
      simp only [listRun, listStep, list_remove, listShown, ih]
    | «at» i =>
      have : LList.at' (⟨Mem.empty, none, none, n⟩ : LList.LL T) i = (⟨Mem.empty, none, none, n⟩, .none) := by
        simp [LList.at', LList.steps, LList.walk]
      simp only [listRun, listStep, LList.step, this, listShown, ih]
    | iterate f =>
      have : LList.iterate (⟨Mem.empty, none, none, n⟩ : LList.LL T) f =
          (⟨Mem.empty, none, none, n⟩, .vals []) := by
        simp [LList.iterate, LList.visit]
      simp only [listRun, listStep, LList.step, this, listShown, ih]
    | len => exact congrArg (Res.num n :: ·) (ih n)

/-- Nothing ever gets into the list; `Len` counts the attempts, and can be negative. -/
theorem C118_list (ops : List (LList.Op T)) : listRun listZero ops = listShown 0 ops :=
  list_from ops 0

example : stackRun (stackZero : Stack.Stack Nat) [.push 1 none, .push 2 none, .len, .pop, .len] =
    [.panic, .panic, .num 2, .none, .num 2] := by rw [C118_stack]; decide

example : listRun (listZero : LList.LL Nat) [.append 1 none, .remove 0, .remove 3, .len, .at 0] =
    [.panic, .none, .none, .num (-1), .none] := by rw [C118_list]; decide
end linked

/-- The ring: `Enqueue`, `IsFull` and `Head` panic, `Cap` is −1. -/
theorem C118_ring {T : Type} [Inhabited T] (ops : List (Ring.Op T)) :
    ringRun ringZero ops = ops.map ringShown := by
  induction ops with
  | nil => rfl
  | cons op ops ih =>
    have h : ringStep (ringZero : Ring.Ring T) op = (ringZero, ringShown op) := by
      cases op <;> rfl
    simp only [ringRun, h, ih, List.map_cons]

/-- A ring with a modulus, as `New` makes it, is the ring of the other properties. -/
theorem C118_ring_made {T : Type} [Inhabited T] {r : Ring.Ring T} (h : r.cap ≠ 0) (op : Ring.Op T) : ringStep r op = Ring.step r op := by
  cases op <;> simp [ringStep, Ring.step, h]

example : ∃ r : Ring.Ring Nat, Ring.new 3 = .ret (some r) ∧ r.cap ≠ 0 := ⟨_, rfl, by decide⟩

section syncmap
open Verif.SyncMap
variable {K V : Type} [DecidableEq K] [DecidableEq V] [Inhabited V]

theorem smap_quiet (cs : List (Call K V)) (h : ∀ c ∈ cs, quiet c = true) (rest : List (Call K V)) (n : Option (List (K × V)))
    (hn : n.getD [] = []) :
    ∃ rs, rs.length = cs.length ∧ smapRun smapNew cs = rs ∧
      smapRun ⟨n, false⟩ (cs ++ rest) = rs ++ smapRun ⟨n, false⟩ rest := by
  induction cs with
  | nil => exact ⟨[], rfl, rfl, rfl⟩
  | cons c cs ih =>
    obtain ⟨rs, h1, h2, h3⟩ := ih (fun c hc => h c (List.mem_cons_of_mem _ hc))
    have hc := h c List.mem_cons_self
    have key : ∃ r, smapStep (smapNew : Smap K V) c = (smapNew, r) ∧
        smapStep (⟨n, false⟩ : Smap K V) c = (⟨n, false⟩, r) := by
      have hd : ∀ k, n.map (erase · k) = n := by
        intro k
        cases n with
        | none => rfl
        | some m => simp only [Option.getD_some] at hn; subst hn; rfl
      cases c with
      | get k => exact ⟨_, rfl, by simp [smapStep, smapNew, hn]⟩
      | has k => exact ⟨_, rfl, by simp [smapStep, smapNew, hn]⟩
      | size => exact ⟨_, rfl, by simp [smapStep, smapNew, hn]⟩
      | keys => exact ⟨_, rfl, by simp [smapStep, smapNew, hn]⟩
      | values => exact ⟨_, rfl, by simp [smapStep, smapNew, hn]⟩
      | delete k => exact ⟨_, rfl, by simp [smapStep, hd]⟩
      | set k v => exact absurd hc (by simp [quiet])
      | clear => exact absurd hc (by simp [quiet])
    obtain ⟨r, k1, k2⟩ := key
    refine ⟨r :: rs, by simp [h1], by simp only [smapRun, k1, h2], ?_⟩
    simp only [List.cons_append, smapRun, k2, h3]

theorem smap_stuck (m : Option (List (K × V))) (cs : List (Call K V)) :
    smapRun ⟨m, true⟩ cs = List.replicate cs.length .hang := by
  induction cs with
  | nil => rfl
  | cons c cs ih => exact congrArg (Outcome.hang :: ·) ih

/-- The map is an empty map as long as nothing is stored and it is not cleared. -/
theorem C118_map_reads (cs : List (Call K V)) (h : ∀ c ∈ cs, quiet c = true) :
    smapRun smapZero cs = smapRun smapNew cs := by
  obtain ⟨rs, _, h2, h3⟩ := smap_quiet cs h [] none rfl
  simp only [List.append_nil, smapRun] at h3
  exact h3.trans h2.symm

/-- After the first `Clear`, if nothing was stored before it, it is a map like any other. -/
theorem C118_map_cleared (cs ds : List (Call K V)) (h : ∀ c ∈ cs, quiet c = true) :
    smapRun smapZero (cs ++ .clear :: ds) = smapRun smapNew (cs ++ .clear :: ds) := by
  obtain ⟨rs, _, h2, h3⟩ := smap_quiet cs h (.clear :: ds) none rfl
  obtain ⟨rs', _, h2', h3'⟩ := smap_quiet cs h (.clear :: ds) (some []) rfl
  rw [h2] at h2'
  subst h2'
  exact h3.trans h3'.symm

/-- The first `Set` panics, and every call after it, of any method, waits for ever. -/
theorem C118_map_set (cs ds : List (Call K V)) (k : K) (v : V) (h : ∀ c ∈ cs, quiet c = true) :
    smapRun smapZero (cs ++ .set k v :: ds) =
      smapRun smapNew cs ++ .panic :: List.replicate ds.length .hang := by
  obtain ⟨rs, _, h2, h3⟩ := smap_quiet cs h (.set k v :: ds) none rfl
  rw [h2]
  refine h3.trans (congrArg (rs ++ ·) ?_)
  exact congrArg (Outcome.panic :: ·) (smap_stuck none ds)

example : (∀ c ∈ ([.get 1, .delete 2, .keys] : List (Call Nat Nat)), quiet c = true) ∧
    smapRun (smapZero : Smap Nat Nat) ([.get 1, .delete 2, .keys] ++ .set 3 4 :: [.get 3, .clear]) =
      [.ret (.val 0), .ret .unit, .ret (.keys []), .panic, .hang, .hang] :=
  ⟨by decide, rfl⟩
end syncmap

section skl
open Verif.Skl
variable {K V : Type} [GoOrdered K] [Inhabited K] [Inhabited V]

/-- The skip list map: until `Clear`, everything but `Len` panics; `Clear` makes it a new map. -/
theorem C118_skl (ops post : List (MOp K V)) (seed : BitVec 64) (h : ∀ op ∈ ops, isClear op = false) :
    sklRun none ops = ops.map sklShown ∧
    sklRun none (ops ++ .clear seed :: post) =
      ops.map sklShown ++ .ret .unit :: sklRun (some (Skl.new seed)) post := by
  induction ops with
  | nil => exact ⟨rfl, rfl⟩
  | cons op ops ih =>
    obtain ⟨h1, h2⟩ := ih (fun o ho => h o (List.mem_cons_of_mem _ ho))
    have hs : sklStep (none : Smap? K V) op = (none, sklShown op) := by
      have hc := h op List.mem_cons_self
      cases op with
      | clear s => exact absurd hc (by simp [isClear])
      | _ => rfl
    constructor
    · simp only [sklRun, hs, h1, List.map_cons]
    · simp only [List.cons_append, sklRun, hs, h2, List.map_cons]

example : (∀ op ∈ ([.len, .get 3, .set 3 4] : List (MOp Nat Nat)), isClear op = false) ∧
    sklRun (none : Smap? Nat Nat) ([.len, .get 3, .set 3 4] ++ .clear 7 :: [.len, .keys]) =
      [.ret (.num 0), .panic, .panic, .ret .unit, .ret (.num 0), .ret (.keys [])] := ⟨by decide, rfl⟩

/-- The ordered map: nothing is ever found in it and everything but `Get` and `Del` panics, `Clear`
too, and after `Clear` as before. -/
theorem C118_ord (ops : List (MOp K V)) : ordRun ordZero ops = ops.map ordShown := by
  have key : ∀ (ops : List (MOp K V)) (o : ZOrd K V), (∀ k, o.find k = none) →
      ordRun o ops = ops.map ordShown := by
    intro ops
    induction ops with
    | nil => intros; rfl
    | cons op ops ih =>
      intro o ho
      have hs : ∃ o', ordStep o op = (o', ordShown op) ∧ ∀ k, o'.find k = none := by
        cases op with
        | set k v =>
          rcases hm : o.m with _ | m
          · exact ⟨o, by simp [ordStep, hm, ordShown], ho⟩
          · have := ho k
            simp only [ZOrd.find, hm] at this
            exact ⟨o, by simp [ordStep, hm, this, ordShown], ho⟩
        | get k => exact ⟨o, by simp [ordStep, ho, ordShown], ho⟩
        | del k => exact ⟨o, by simp [ordStep, ho, ordShown], ho⟩
        | clear s => exact ⟨_, rfl, fun _ => rfl⟩
        | len => exact ⟨o, rfl, ho⟩
        | keys => exact ⟨o, rfl, ho⟩
        | values => exact ⟨o, rfl, ho⟩
      obtain ⟨o', h1, h2⟩ := hs
      simp only [ordRun, h1, List.map_cons, ih o' h2]
  exact key ops ordZero fun _ => rfl
end skl

/-! ## Where it is as good as new -/

/-- The slice stack, for every history: a nil slice is a slice. -/
theorem C118_slice_stack : SliceStackAsNew := by
  intro T _ h ops
  rw [SliceC.C18_slice_stack]
  exact SliceC.stackRun_rep (l := []) ⟨Sl.nil_ok h, rfl⟩ ops

open Linked in
/-- **C118 (partial).** The slice stack is always as good as new. So are the linked containers and
`Map` as long as nothing is put in. -/
theorem C118_partial :
    SliceStackAsNew ∧
    (∀ (T : Type) [Inhabited T] (ops : List (Queue.Op T)), (∀ op ∈ ops, Queue.reads op) →
      queueRun queueZero ops = Linked.Queue.run Linked.Queue.new ops) ∧
    (∀ (T : Type) [Inhabited T] (ops : List (Deque.Op T)), (∀ op ∈ ops, Deque.reads op) →
      dequeRun dequeZero ops = Linked.Deque.run Linked.Deque.new ops) ∧
    (∀ (T : Type) [Inhabited T] (ops : List (Stack.Op T)), (∀ op ∈ ops, Stack.reads op) →
      stackRun stackZero ops = Linked.Stack.run Linked.Stack.new ops) ∧
    (∀ (T : Type) [Inhabited T] (ops : List (LList.Op T)), (∀ op ∈ ops, LList.reads op) →
      listRun listZero ops = Linked.LList.run Linked.LList.new ops) ∧
    (∀ (K V : Type) [DecidableEq K] [DecidableEq V] [Inhabited V] (cs : List (SyncMap.Call K V)),
      (∀ c ∈ cs, quiet c = true) → smapRun smapZero cs = smapRun smapNew cs) := by
  refine ⟨C118_slice_stack, ?_, ?_, ?_, ?_, fun K V _ _ _ cs h => C118_map_reads cs h⟩
  · intro T _ ops h
    induction ops with
    | nil => rfl
    | cons op ops ih =>
      have := ih fun o ho => h o (List.mem_cons_of_mem _ ho)
      have hr := h op List.mem_cons_self
      cases op with
      | enqueue v c => exact hr.elim
      | dequeue => exact congrArg (Res.none :: ·) this
      | peek => exact congrArg (Res.none :: ·) this
      | isEmpty => exact congrArg (Res.bool true :: ·) this
  · intro T _ ops h
    induction ops with
    | nil => rfl
    | cons op ops ih =>
      have := ih fun o ho => h o (List.mem_cons_of_mem _ ho)
      have hr := h op List.mem_cons_self
      cases op with
      | pushFront v c => exact hr.elim
      | pushBack v c => exact hr.elim
      | popFront => exact congrArg (Res.none :: ·) this
      | popBack => exact congrArg (Res.none :: ·) this
      | peekFront => exact congrArg (Res.none :: ·) this
      | peekBack => exact congrArg (Res.none :: ·) this
  · intro T _ ops h
    induction ops with
    | nil => rfl
    | cons op ops ih =>
      have := ih fun o ho => h o (List.mem_cons_of_mem _ ho)
      have hr := h op List.mem_cons_self
      cases op with
      | push v c => exact hr.elim
      | pop => exact congrArg (Res.none :: ·) this
      | peek => exact congrArg (Res.none :: ·) this
      | len => exact congrArg (Res.num 0 :: ·) this
  · intro T _ ops h
    have key : ∀ (n : Int), listRun ⟨Mem.empty, none, none, n⟩ ops =
        Linked.LList.run (⟨Mem.empty, none, none, n⟩ : LList.LL T) ops := by
      induction ops with
      | nil => intro n; rfl
      | cons op ops ih =>
        intro n
        have ih := ih fun o ho => h o (List.mem_cons_of_mem _ ho)
        have hr := h op List.mem_cons_self
        cases op with
        | append v c => exact hr.elim
        | insert i v c => exact hr.elim
        | remove i =>
          simp only [listRun, listStep, Linked.LList.run, Linked.LList.step, list_remove, ih]
        | «at» i =>
          have e : Linked.LList.at' (⟨Mem.empty, none, none, n⟩ : LList.LL T) i =
              (⟨Mem.empty, none, none, n⟩, .none) := by
            simp [Linked.LList.at', Linked.LList.steps, Linked.LList.walk]
          simp only [listRun, listStep, Linked.LList.run, Linked.LList.step, e, ih]
        | iterate f =>
          have e : Linked.LList.iterate (⟨Mem.empty, none, none, n⟩ : LList.LL T) f =
              (⟨Mem.empty, none, none, n⟩, .vals []) := by
            simp [Linked.LList.iterate, Linked.LList.visit]
          simp only [listRun, listStep, Linked.LList.run, Linked.LList.step, e, ih]
        | len => exact congrArg (Res.num n :: ·) (ih n)
    exact key 0

example : (∀ op ∈ ([.remove 2, .len, .iterate fun _ => true] : List (Linked.LList.Op Nat)), LList.reads op) ∧
    listRun (listZero : Linked.LList.LL Nat) [.remove 2, .len, .iterate fun _ => true] =
      [.none, .num (-1), .vals []] := ⟨by simp [LList.reads], rfl⟩

/-! ## The property fails for every other container -/

/-- One call each shows the difference. -/
theorem C118_refuted :
    ¬ QueueAsNew ∧ ¬ DequeAsNew ∧ ¬ StackAsNew ∧ ¬ ListAsNew ∧ ¬ RingAsNew ∧ ¬ MapAsNew ∧
      ¬ SklAsNew ∧ ¬ OrdAsNew ∧ ¬ C118_full := by
  have hq : ¬ QueueAsNew := fun h => by
    have := h Nat [.enqueue 1 none]
    simp [C118_queue, queueShown, Linked.Queue.run, Linked.Queue.step, Linked.Queue.enqueue,
      Linked.Queue.new] at this
  refine ⟨hq, fun h => ?_, fun h => ?_, fun h => ?_, fun h => ?_, fun h => ?_, fun h => ?_, fun h => ?_,
    fun h => hq h.1⟩
  · have := h Nat [.pushBack 1 none]
    simp [C118_deque, dequeShown, Linked.Deque.run, Linked.Deque.step, Linked.Deque.pushBack,
      Linked.Deque.new] at this
  · have := h Nat [.push 1 none]
    simp [C118_stack, stackShown, Linked.Stack.run, Linked.Stack.step, Linked.Stack.push] at this
  · have := h Nat [.append 1 none]
    simp [C118_list, listShown, Linked.LList.run, Linked.LList.step, Linked.LList.append,
      Linked.LList.new] at this
  · obtain ⟨n, r, h1, h2⟩ := h Nat
    have := h2 [.isFull]
    simp [C118_ring, ringShown, Ring.run, Ring.step] at this
  · have := h Nat Nat [.set 1 2]
    have e := C118_map_set (K := Nat) (V := Nat) [] [] 1 2 (by simp)
    simp only [List.nil_append] at e
    rw [e] at this
    simp [smapRun, smapStep, smapNew] at this
  · have := h Nat Nat 0 [.keys]
    exact absurd this (by
      intro e
      have e' : (sklRun (some (Skl.new 0)) [MOp.keys] : List (Outcome (MRes Nat Nat))) = [.ret (.keys [])] := rfl
      rw [e'] at e
      exact absurd e (by simp [sklRun, sklStep]))
  · have := h Nat Nat 0 [.len]
    exact absurd this (by simp [ordRun, ordStep, ordNewRun, ordNewStep])

end Verif.ZeroVal
