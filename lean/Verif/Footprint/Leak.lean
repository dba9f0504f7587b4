import Verif.Footprint.Lemmas
/-!
# Histories after which removed nodes can be reached
-/
set_option linter.unusedSectionVars false
namespace Verif.Footprint
open Verif.Go Verif.Retain Verif.Linked

variable {T : Type} [Inhabited T]

/-! ## The list -/

section LL
open Verif.Linked.LList

/-- A list is used as a queue: `Insert` behind its only element, `Remove` of the first one. -/
def listRound : List (Op T) := [.insert 1 default none, .remove 0]

/-- The first element comes with `Append`, the others do not. -/
def listLeak (k : Nat) : List (Op T) :=
  [.append default none, .insert 1 default none, .remove 0] ++ (List.replicate k listRound).flatten

/-- `tail` is the first node ever made, and from there all others can be reached. -/
structure LState (k : Nat) (s : LL T) : Prop where
  head : s.head = some (k + 1)
  tail : s.tail = some 0
  length : s.length = 1
  brk : s.mem.brk = k + 2
  next : ∀ i, i ≤ k → (s.mem.node i).next = some (i + 1)
  last : (s.mem.node (k + 1)).next = none

theorem LState.round {k : Nat} {s : LL T} (h : LState k s) :
    LState (k + 1) (listRound.foldl (fun s op => (step s op).1) s) := by
  obtain ⟨⟨node, brk, pool⟩, head, tail, length⟩ := s
  obtain ⟨rfl, rfl, rfl, rfl, next, last⟩ := h
  simp only at next last
  have hi : (LList.insert (⟨⟨node, k + 2, pool⟩, some (k + 1), some 0, 1⟩ : LL T) 1 default none).1 =
      ⟨⟨fun i => if i = k + 1 then { node (k + 1) with next := some (k + 2) } else if i = k + 2 then default else node i, k + 3, pool⟩,
        some (k + 1), some 0, 2⟩ := by
    simp [LList.insert, Mem.get, Mem.setData, Mem.setNext, Mem.set, steps, walk, last]
    funext i
    split
    · rfl
    · split
      · rfl
      · rfl
  simp only [listRound, List.foldl_cons, List.foldl_nil, step, hi]
  refine ⟨?_, ?_, ?_, ?_, ?_, ?_⟩
  · simp [remove, Mem.put]
  · simp [remove]
  · simp [remove]
  · simp [remove, Mem.put]
  · intro i hi
    by_cases e : i = k + 1
    · subst e
      simp [remove, Mem.put]
    · simp only [remove, Mem.put, if_true, if_neg e, if_neg (show i ≠ k + 2 by omega)]
      exact next i (by omega)
  · simp [remove, Mem.put, default]

theorem LState.start : LState 0 (([.append default none, .insert 1 default none, .remove 0] : List (Op T)).foldl
    (fun s op => (step s op).1) LList.new) := by
  refine ⟨rfl, rfl, rfl, rfl, fun i hi => ?_, rfl⟩
  obtain rfl : i = 0 := by omega
  rfl

theorem listAfter_leak (k : Nat) : LState k (listAfter (listLeak k : List (Op T))) := by
  rw [listAfter, listLeak, List.foldl_append]
  have : ∀ (k j : Nat) (s : LL T), LState j s →
      LState (j + k) ((List.replicate k (listRound : List (Op T))).flatten.foldl (fun s op => (step s op).1) s) := by
    intro k
    induction k with
    | zero => exact fun j s h => h
    | succ k ih =>
      intro j s h
      rw [List.replicate_succ, List.flatten_cons, List.foldl_append, show j + (k + 1) = (j + 1) + k by omega]
      exact ih _ _ h.round
  have h := this k 0 _ LState.start
  rwa [Nat.zero_add] at h

theorem list_leak (k : Nat) : AtLeast (k + 2) (ListNode (listAfter (listLeak k : List (Op T)))) := by
  have h := listAfter_leak (T := T) k
  refine ⟨List.range (k + 2), List.nodup_range, List.length_range, fun a ha => ?_⟩
  have ha := List.mem_range.1 ha
  clear * - ha h
  induction a with
  | zero => exact .root (by rw [h.tail]; simp)
  | succ a ih => exact .follow (ih (by omega)) (h.next a (by omega))

/-- Along the way. -/
def Along (p : List T → Prop) (l : List T) : List (Op T) → Prop
  | [] => p l
  | op :: ops => p l ∧ Along p (specStep l op).1 ops

theorem Along.append {p : List T → Prop} : ∀ {ops ops' : List (Op T)} {l : List T}, Along p l ops →
    Along p (ops.foldl (fun l op => (specStep l op).1) l) ops' → Along p l (ops ++ ops')
  | [], _, _, _, h => h
  | _ :: _, _, _, h, h' => ⟨h.1, Along.append h.2 h'⟩

theorem Along.prefix {p : List T → Prop} : ∀ {ops : List (Op T)} {l : List T}, Along p l ops → ∀ pre, pre <+: ops →
    p (pre.foldl (fun l op => (specStep l op).1) l)
  | [], _, h, pre, hp => by
    rw [List.prefix_nil.1 hp]; exact h
  | op :: ops, l, h, [], hp => h.1
  | op :: ops, l, h, o :: pre, hp => by
    obtain ⟨rfl, hp'⟩ := List.cons_prefix_cons.1 hp
    exact Along.prefix h.2 pre hp'

theorem Safe.append : ∀ {ops ops' : List (Op T)} {l : List T} {f : Bool}, Safe f l ops →
    (∀ f, Safe f (ops.foldl (fun l op => (specStep l op).1) l) ops') → Safe f l (ops ++ ops')
  | [], _, _, _, _, h => h _
  | _ :: _, _, _, _, h, h' => ⟨h.1, Safe.append h.2 h'⟩

theorem listRound_holds : (listRound : List (Op T)).foldl (fun l op => (specStep l op).1) [default] = [default] := rfl

theorem listLeak_rounds (k : Nat) : (∀ f, Safe f [default] (List.replicate k (listRound : List (Op T))).flatten) ∧
    Along (fun l => l.length ≤ 2) [default] (List.replicate k (listRound : List (Op T))).flatten ∧
    (List.replicate k (listRound : List (Op T))).flatten.foldl (fun l op => (specStep l op).1) [default] = [default] := by
  induction k with
  | zero => exact ⟨fun _ => trivial, by simp [Along], rfl⟩
  | succ k ih =>
    rw [List.replicate_succ, List.flatten_cons, List.foldl_append, listRound_holds]
    refine ⟨fun f => Safe.append ?_ (by rw [listRound_holds]; exact ih.1), Along.append ?_ (by rw [listRound_holds]; exact ih.2.1), ih.2.2⟩
    · simp [listRound, Safe, SafeOp, specStep]
    · simp [listRound, Along, specStep]

theorem listLeak_fine (k : Nat) : Safe true [] (listLeak k : List (Op T)) ∧ ListMax 2 (listLeak k : List (Op T)) ∧
    listHolds (listLeak k : List (Op T)) = [default] := by
  have h := listLeak_rounds (T := T) k
  have e : ([.append default none, .insert 1 default none, .remove 0] : List (Op T)).foldl (fun l op => (specStep l op).1) [] = [default] := rfl
  refine ⟨Safe.append ?_ (by rw [e]; exact h.1), Along.prefix (p := fun l => l.length ≤ 2) (Along.append ?_ (by rw [e]; exact h.2.1)), ?_⟩
  · simp [Safe, SafeOp, specStep]
  · simp [Along, specStep]
  · rw [listHolds, listLeak, List.foldl_append, e, h.2.2]

end LL

/-! ## The deque -/

section Dq
open Verif.Linked.Deque

/-- Six calls on a deque of one element; the node that the second one gave to the pool comes back in the fifth. -/
def dequeRound : List (Op T) :=
  [.pushBack default none, .popBack, .pushBack default none, .popFront, .pushFront default (some 1), .popBack]

/-- Any number of such rounds. -/
def dequeLeak (k : Nat) : List (Op T) :=
  [.pushFront default none, .pushFront default none, .popBack] ++ (List.replicate k dequeRound).flatten

/-- Following `prev`. -/
def Trail (m : Mem (DNode T)) : Nat → List Nat → Prop
  | _, [] => True
  | a, b :: l => (m.node a).prev = some b ∧ Trail m b l

theorem Trail.congr {m m' : Mem (DNode T)} : ∀ {l : List Nat} {a : Nat}, Trail m a l →
    (∀ x ∈ a :: l, (m'.node x).prev = (m.node x).prev) → Trail m' a l
  | [], _, _, _ => trivial
  | b :: l, a, h, e => ⟨by rw [e a (by simp)]; exact h.1, h.2.congr fun x hx => e x (List.mem_cons_of_mem _ hx)⟩

theorem pushBack_node {d : Deque T} {t : Nat} (v : T) (ht : d.tail = some t) (hlt : t < d.mem.brk) (hf : (d.mem.node t).fin = nodeBufferSize) :
    ∃ m, (Deque.pushBack d v none).1 = ⟨m, d.head, some d.mem.brk⟩ ∧ m.brk = d.mem.brk + 1 ∧ m.pool = d.mem.pool ∧
      m.node t = { d.mem.node t with next := some d.mem.brk } ∧
      (m.node d.mem.brk).start = 0 ∧ (m.node d.mem.brk).fin = 1 ∧ (m.node d.mem.brk).prev = some t ∧
      ∀ x, x ≠ t → x ≠ d.mem.brk → m.node x = d.mem.node x := by
  have hne : t ≠ d.mem.brk := by omega
  simp only [Deque.pushBack, ht, hf, if_true, get_none]
  refine ⟨_, rfl, rfl, rfl, ?_, ?_, ?_, ?_, ?_⟩
  · simp [Mem.set, hne, hf]
  · simp [Mem.set, hne.symm]
  · simp [Mem.set, hne.symm]
  · simp [Mem.set, hne.symm]
  · intro x h1 h2
    simp [Mem.set, h1, h2]

theorem popBack_node {d : Deque T} {t b : Nat} (ht : d.tail = some t) (hs : (d.mem.node t).start = 0) (hf : (d.mem.node t).fin = 1)
    (hp : (d.mem.node t).prev = some b) (hne : b ≠ t) :
    ∃ m, (Deque.popBack d).1 = ⟨m, d.head, some b⟩ ∧ m.brk = d.mem.brk ∧ m.pool = t :: d.mem.pool ∧
      m.node b = { d.mem.node b with next := none } ∧ m.node t = { d.mem.node t with fin := 0 } ∧
      ∀ x, x ≠ t → x ≠ b → m.node x = d.mem.node x := by
  have hb : inBuf 0 = true := by decide
  simp only [Deque.popBack, ht, hf, set_same, Int.sub_self, hb, if_true, hs, put_node, hp]
  refine ⟨_, rfl, rfl, rfl, ?_, ?_, ?_⟩
  · simp [Mem.set, Mem.put, hne]
  · simp [Mem.set, Mem.put, hne.symm]
  · intro x h1 h2
    simp [Mem.set, Mem.put, h1, h2]

theorem popFront_node {d : Deque T} {h b : Nat} (hh : d.head = some h) (hs : (d.mem.node h).start = 63) (hf : (d.mem.node h).fin = 64)
    (hn : (d.mem.node h).next = some b) (hne : b ≠ h) :
    ∃ m, (Deque.popFront d).1 = ⟨m, some b, d.tail⟩ ∧ m.brk = d.mem.brk ∧ m.pool = h :: d.mem.pool ∧
      m.node b = { d.mem.node b with prev := none } ∧ m.node h = { d.mem.node h with start := 64 } ∧
      ∀ x, x ≠ h → x ≠ b → m.node x = d.mem.node x := by
  have hb : inBuf 63 = true := by decide
  simp only [Deque.popFront, hh, hs, hb, set_same, if_true, hf, put_node, hn, show (63 : Int) + 1 = 64 from rfl]
  refine ⟨_, rfl, rfl, rfl, ?_, ?_, ?_⟩
  · simp [Mem.set, Mem.put, hne]
  · simp [Mem.set, Mem.put, hne.symm]
  · intro x h1 h2
    simp [Mem.set, Mem.put, h1, h2]

theorem pushFront_node {d : Deque T} {h n : Nat} (v : T) (hh : d.head = some h) (hs : (d.mem.node h).start = 0)
    (hn : d.mem.pool[1]? = some n) (hne : h ≠ n) :
    ∃ m, (Deque.pushFront d v (some 1)).1 = ⟨m, some n, d.tail⟩ ∧ m.brk = d.mem.brk ∧
      m.node h = { d.mem.node h with prev := some n } ∧
      (m.node n).start = 63 ∧ (m.node n).fin = 64 ∧ (m.node n).prev = (d.mem.node n).prev ∧
      ∀ x, x ≠ h → x ≠ n → m.node x = d.mem.node x := by
  have hg : d.mem.get (some 1) = (n, { d.mem with pool := d.mem.pool.erase n }) := by simp [Mem.get, hn]
  simp only [Deque.pushFront, hh, hs, if_true, hg]
  refine ⟨_, rfl, rfl, ?_, ?_, ?_, ?_, ?_⟩
  · simp [Mem.set, hne, hs]
  · simp [Mem.set, hne.symm, nodeBufferSize]
  · simp [Mem.set, hne.symm, nodeBufferSize]
  · simp [Mem.set, hne.symm]
  · intro x h1 h2
    simp [Mem.set, h1, h2]

/-- One node with one element in its last place, from which `l` is reached. -/
structure DState (l : List Nat) (d : Deque T) : Prop where
  one : ∃ a, d.head = some a ∧ d.tail = some a ∧ (d.mem.node a).start = 63 ∧ (d.mem.node a).fin = 64 ∧ Trail d.mem a l ∧
    (a :: l).Nodup ∧ ∀ x ∈ a :: l, x < d.mem.brk

theorem DState.round {l : List Nat} {d : Deque T} (h : DState l d) :
    ∃ b, DState (b :: l) (dequeRound.foldl (fun s op => (step s op).1) d) := by
  obtain ⟨a, hh, ht, hs, hf, htr, hnd, hlt⟩ := h
  have ha : a < d.mem.brk := hlt a (by simp)
  obtain ⟨m1, e1, b1, p1, n1a, n1s, n1f, n1p, n1⟩ := pushBack_node (d := d) default ht ha hf
  have ha1 : a ≠ d.mem.brk := by omega
  obtain ⟨m2, e2, b2, p2, n2a, n2n, n2⟩ := popBack_node (d := ⟨m1, d.head, some d.mem.brk⟩) (t := d.mem.brk) (b := a) rfl n1s n1f n1p ha1
  obtain ⟨m3, e3, b3, p3, n3a, n3s, n3f, n3p, n3⟩ := pushBack_node (d := ⟨m2, d.head, some a⟩) default (t := a) rfl
    (by simp only [b2, b1]; omega) (by simp only [n2a, n1a]; exact hf)
  simp only at e2 b2 p2 n2a n2n n2 e3 b3 p3 n3a n3s n3f n3p n3
  have hq : m2.brk = d.mem.brk + 1 := b2.trans b1
  rw [hq] at e3 b3 n3a n3s n3f n3p n3
  have haq : d.mem.brk + 1 ≠ a := by omega
  obtain ⟨m4, e4, b4, p4, n4q, n4a, n4⟩ := popFront_node (d := ⟨m3, d.head, some (d.mem.brk + 1)⟩) (h := a) (b := d.mem.brk + 1) hh
    (by simp only [n3a, n2a, n1a]; exact hs) (by simp only [n3a, n2a, n1a]; exact hf) (by simp only [n3a]) haq
  simp only at e4 b4 p4 n4q n4a n4
  obtain ⟨m5, e5, b5, n5q, n5s, n5f, n5p, n5⟩ := pushFront_node (d := ⟨m4, some (d.mem.brk + 1), some (d.mem.brk + 1)⟩) default
    (h := d.mem.brk + 1) (n := d.mem.brk) rfl (by simp only [n4q, n3s]) (by simp only [p4, p3, p2]; rfl) (by omega)
  simp only at e5 b5 n5q n5s n5f n5p n5
  obtain ⟨m6, e6, b6, p6, n6n, n6q, n6⟩ := popBack_node (d := ⟨m5, some d.mem.brk, some (d.mem.brk + 1)⟩) (t := d.mem.brk + 1) (b := d.mem.brk) rfl
    (by simp only [n5q, n4q, n3s]) (by simp only [n5q, n4q, n3f]) (by simp only [n5q]) (by omega)
  simp only at e6 b6 p6 n6n n6q n6
  refine ⟨a, d.mem.brk, ?_⟩
  simp only [dequeRound, List.foldl_cons, List.foldl_nil, step, e1, e2, e3, e4, e5, e6]
  have old : ∀ x ∈ a :: l, (m6.node x).prev = (d.mem.node x).prev := by
    intro x hx
    have hx' := hlt x hx
    have h1 : x ≠ d.mem.brk := by omega
    have h2 : x ≠ d.mem.brk + 1 := by omega
    rw [n6 x h2 h1, n5 x h2 h1]
    by_cases e : x = a
    · subst e
      simp only [n4a, n3a, n2a, n1a]
    · rw [n4 x e h2, n3 x e h2, n2 x h1 e, n1 x e h1]
  refine ⟨trivial, trivial, ?_, ?_, ⟨?_, htr.congr old⟩, ?_, ?_⟩
  · simp only [n6n, n5s]
  · simp only [n6n, n5f]
  · simp only [n6n, n5p]
    rw [n4 _ ha1.symm (by omega), n3 _ ha1.symm (by omega), n2n]
    exact n1p
  · refine List.nodup_cons.2 ⟨fun hx => ?_, hnd⟩
    have := hlt _ hx
    omega
  · intro x hx
    have hb : m6.brk = d.mem.brk + 2 := by rw [b6, b5, b4, b3]
    simp only [hb]
    rcases List.mem_cons.1 hx with rfl | hx
    · omega
    · have := hlt x hx
      omega

theorem DState.start : DState [] (([.pushFront default none, .pushFront default none, .popBack] : List (Op T)).foldl
    (fun s op => (step s op).1) Deque.new) := by
  refine ⟨1, rfl, rfl, rfl, rfl, trivial, by simp, fun x hx => ?_⟩
  obtain rfl : x = 1 := by simpa using hx
  exact Nat.lt_of_lt_of_eq (by decide : 1 < 2) rfl

theorem dequeAfter_leak (k : Nat) : ∃ l, l.length = k ∧ DState l (dequeAfter (dequeLeak k : List (Op T))) := by
  rw [dequeAfter, dequeLeak, List.foldl_append]
  have : ∀ (k : Nat) (l : List Nat) (s : Deque T), DState l s →
      ∃ l', l'.length = l.length + k ∧ DState l' ((List.replicate k (dequeRound : List (Op T))).flatten.foldl (fun s op => (step s op).1) s) := by
    intro k
    induction k with
    | zero => exact fun l s h => ⟨l, rfl, h⟩
    | succ k ih =>
      intro l s h
      rw [List.replicate_succ, List.flatten_cons, List.foldl_append]
      obtain ⟨b, h'⟩ := h.round
      obtain ⟨l', e, h'⟩ := ih _ _ h'
      exact ⟨l', by rw [e, List.length_cons]; omega, h'⟩
  obtain ⟨l, e, h⟩ := this k [] _ DState.start
  exact ⟨l, by simpa using e, h⟩

theorem trail_reach {m : Mem (DNode T)} {root : Nat → Prop} : ∀ {l : List Nat} {a : Nat}, Trail m a l →
    Reachable root (fun a b => (m.node a).next = some b ∨ (m.node a).prev = some b) a →
    ∀ b ∈ a :: l, Reachable root (fun a b => (m.node a).next = some b ∨ (m.node a).prev = some b) b
  | [], a, _, h => by simpa using h
  | c :: l, a, ht, h => by
    have hc : Reachable root (fun a b => (m.node a).next = some b ∨ (m.node a).prev = some b) c := .follow h (.inr ht.1)
    intro b hb
    rcases List.mem_cons.1 hb with rfl | hb
    · exact h
    · exact trail_reach ht.2 hc b hb

theorem deque_leak (k : Nat) : AtLeast (k + 1) (DequeNode (dequeAfter (dequeLeak k : List (Op T)))) := by
  obtain ⟨l, e, a, hh, -, -, -, htr, hnd, -⟩ := dequeAfter_leak (T := T) k
  exact ⟨a :: l, hnd, by simp [e], trail_reach htr (.root (by rw [hh]; simp))⟩

/-- Along the way. -/
def DAlong (p : List T → Prop) (l : List T) : List (Op T) → Prop
  | [] => p l
  | op :: ops => p l ∧ DAlong p (specStep l op).1 ops

theorem DAlong.append {p : List T → Prop} : ∀ {ops ops' : List (Op T)} {l : List T}, DAlong p l ops →
    DAlong p (ops.foldl (fun l op => (specStep l op).1) l) ops' → DAlong p l (ops ++ ops')
  | [], _, _, _, h => h
  | _ :: _, _, _, h, h' => ⟨h.1, DAlong.append h.2 h'⟩

theorem DAlong.prefix {p : List T → Prop} : ∀ {ops : List (Op T)} {l : List T}, DAlong p l ops → ∀ pre, pre <+: ops →
    p (pre.foldl (fun l op => (specStep l op).1) l)
  | [], _, h, pre, hp => by
    rw [List.prefix_nil.1 hp]; exact h
  | op :: ops, l, h, [], hp => h.1
  | op :: ops, l, h, o :: pre, hp => by
    obtain ⟨rfl, hp'⟩ := List.cons_prefix_cons.1 hp
    exact DAlong.prefix h.2 pre hp'

theorem KeepsOne.append : ∀ {ops ops' : List (Op T)} {l : List T}, KeepsOne l ops →
    KeepsOne (ops.foldl (fun l op => (specStep l op).1) l) ops' → KeepsOne l (ops ++ ops')
  | [], _, _, _, h => h
  | _ :: _, _, _, h, h' => ⟨h.1, KeepsOne.append h.2 h'⟩

theorem dequeRound_holds : (dequeRound : List (Op T)).foldl (fun l op => (specStep l op).1) [default] = [default] := rfl

theorem dequeLeak_rounds (k : Nat) : KeepsOne [default] (List.replicate k (dequeRound : List (Op T))).flatten ∧
    DAlong (fun l => l.length ≤ 2) [default] (List.replicate k (dequeRound : List (Op T))).flatten ∧
    (List.replicate k (dequeRound : List (Op T))).flatten.foldl (fun l op => (specStep l op).1) [default] = [default] := by
  induction k with
  | zero => exact ⟨trivial, by simp [DAlong], rfl⟩
  | succ k ih =>
    rw [List.replicate_succ, List.flatten_cons, List.foldl_append, dequeRound_holds]
    refine ⟨KeepsOne.append ?_ (by rw [dequeRound_holds]; exact ih.1), DAlong.append ?_ (by rw [dequeRound_holds]; exact ih.2.1), ih.2.2⟩
    · simp [dequeRound, KeepsOne, specStep]
    · simp [dequeRound, DAlong, specStep]

theorem dequeLeak_fine (k : Nat) : KeepsOne [] (dequeLeak k : List (Op T)) ∧ DequeMax 2 (dequeLeak k : List (Op T)) ∧
    dequeHolds (dequeLeak k : List (Op T)) = [default] := by
  have h := dequeLeak_rounds (T := T) k
  have e : ([.pushFront default none, .pushFront default none, .popBack] : List (Op T)).foldl (fun l op => (specStep l op).1) [] = [default] := rfl
  refine ⟨KeepsOne.append ?_ (by rw [e]; exact h.1), DAlong.prefix (p := fun l => l.length ≤ 2) (DAlong.append ?_ (by rw [e]; exact h.2.1)), ?_⟩
  · simp [KeepsOne, specStep]
  · simp [DAlong, specStep]
  · rw [dequeHolds, dequeLeak, List.foldl_append, e, h.2.2]

end Dq

end Verif.Footprint
