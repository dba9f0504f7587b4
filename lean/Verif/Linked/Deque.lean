import Verif.Linked.Heap
/-!
# The linked deque `dsx/linkedx/dequex`: model, specification, refinement
-/
set_option linter.unusedSectionVars false
namespace Verif.Linked.Deque
open Verif.Linked

/-! ## Model -/

variable {T : Type} [Inhabited T]

/-- dequex.go:11 `nodeBufferSize`. -/
def nodeBufferSize : Int := 64

/-- dequex.go:13-19 `node`: a 64-element array, the used range `start..fin`, two links. Accesses to
`data` check the index against the array bounds in the operations below. -/
structure DNode (T : Type) where
  data : Int → T
  start : Int
  fin : Int
  next : Option Nat
  prev : Option Nat

instance : Inhabited (DNode T) := ⟨⟨fun _ => default, 0, 0, none, none⟩⟩

/-- dequex.go:21-25 `Deque`. -/
structure Deque (T : Type) where
  mem : Mem (DNode T)
  head : Option Nat
  tail : Option Nat

/-- dequex.go:27-35 `New`. -/
def new : Deque T := ⟨Mem.empty, none, none⟩

/-- The methods; pushes carry the choice of `pool.Get`. -/
inductive Op (T : Type) where
  | pushFront (v : T) (choice : Option Nat)
  | pushBack (v : T) (choice : Option Nat)
  | popFront
  | popBack
  | peekFront
  | peekBack

/-- Index into a `[64]T`. -/
def inBuf (i : Int) : Bool := decide (0 ≤ i) && decide (i < nodeBufferSize)

def upd (f : Int → T) (i : Int) (v : T) : Int → T := fun j => if j = i then v else f j

/-- dequex.go:37-59 `PushFront`. -/
def pushFront (d : Deque T) (v : T) (choice : Option Nat) : Deque T × Res T :=
  match d.head with
  | none =>
    let (n, m) := d.mem.get choice
    let m := m.set n { m.node n with data := upd (m.node n).data 0 v, start := 0, fin := 1 }
    (⟨m, some n, some n⟩, .unit)
  | some h =>
    if (d.mem.node h).start = 0 then
      let (n, m) := d.mem.get choice
      let m := m.set n { m.node n with
        data := upd (m.node n).data (nodeBufferSize - 1) v, start := nodeBufferSize - 1,
        fin := nodeBufferSize, next := some h }
      let m := m.set h { m.node h with prev := some n }
      (⟨m, some n, d.tail⟩, .unit)
    else
      let s := (d.mem.node h).start - 1
      let m := d.mem.set h { d.mem.node h with start := s }
      if inBuf s then (⟨m.set h { m.node h with data := upd (m.node h).data s v }, d.head, d.tail⟩, .unit)
      else (⟨m, d.head, d.tail⟩, .panic)

/-- dequex.go:61-83 `PushBack`. -/
def pushBack (d : Deque T) (v : T) (choice : Option Nat) : Deque T × Res T :=
  match d.tail with
  | none =>
    let (n, m) := d.mem.get choice
    let m := m.set n { m.node n with data := upd (m.node n).data 0 v, start := 0, fin := 1 }
    (⟨m, some n, some n⟩, .unit)
  | some t =>
    if (d.mem.node t).fin = nodeBufferSize then
      let (n, m) := d.mem.get choice
      let m := m.set n { m.node n with
        data := upd (m.node n).data 0 v, start := 0, fin := 1, prev := some t }
      let m := m.set t { m.node t with next := some n }
      (⟨m, d.head, some n⟩, .unit)
    else
      let e := (d.mem.node t).fin
      if inBuf e then
        (⟨d.mem.set t { d.mem.node t with data := upd (d.mem.node t).data e v, fin := e + 1 }, d.head, d.tail⟩, .unit)
      else (d, .panic)

/-- dequex.go:85-99 `PopFront`. -/
def popFront (d : Deque T) : Deque T × Res T :=
  match d.head with
  | none => (d, .none)
  | some h =>
    if inBuf (d.mem.node h).start then
      let v := (d.mem.node h).data (d.mem.node h).start
      let m := d.mem.set h { d.mem.node h with start := (d.mem.node h).start + 1 }
      if (m.node h).start = (m.node h).fin then
        let m := m.put h
        match (m.node h).next with
        | none => (⟨m, none, d.tail⟩, .val v)
        | some b => (⟨m.set b { m.node b with prev := none }, some b, d.tail⟩, .val v)
      else (⟨m, d.head, d.tail⟩, .val v)
    else (d, .panic)

/-- dequex.go:101-115 `PopBack`. -/
def popBack (d : Deque T) : Deque T × Res T :=
  match d.tail with
  | none => (d, .none)
  | some t =>
    let m := d.mem.set t { d.mem.node t with fin := (d.mem.node t).fin - 1 }
    if inBuf (m.node t).fin then
      let v := (m.node t).data (m.node t).fin
      if (m.node t).start = (m.node t).fin then
        let m := m.put t
        match (m.node t).prev with
        | none => (⟨m, d.head, none⟩, .val v)
        | some b => (⟨m.set b { m.node b with next := none }, d.head, some b⟩, .val v)
      else (⟨m, d.head, d.tail⟩, .val v)
    else (⟨m, d.head, d.tail⟩, .panic)

/-- dequex.go:117-122 `PeekFront`. -/
def peekFront (d : Deque T) : Deque T × Res T :=
  match d.head with
  | none => (d, .none)
  | some h =>
    if inBuf (d.mem.node h).start then (d, .val ((d.mem.node h).data (d.mem.node h).start)) else (d, .panic)

/-- dequex.go:124-129 `PeekBack`. -/
def peekBack (d : Deque T) : Deque T × Res T :=
  match d.tail with
  | none => (d, .none)
  | some t =>
    if inBuf ((d.mem.node t).fin - 1) then (d, .val ((d.mem.node t).data ((d.mem.node t).fin - 1))) else (d, .panic)

def step (d : Deque T) : Op T → Deque T × Res T
  | .pushFront v c => pushFront d v c
  | .pushBack v c => pushBack d v c
  | .popFront => popFront d
  | .popBack => popBack d
  | .peekFront => peekFront d
  | .peekBack => peekBack d

/-- Run a history; the results in order. -/
def run (d : Deque T) : List (Op T) → List (Res T)
  | [] => []
  | op :: ops => (step d op).2 :: run (step d op).1 ops

/-! ## Specification -/

def first : List T → Res T
  | [] => .none
  | x :: _ => .val x

/-- A deque is the list of its elements, front first. -/
def specStep (l : List T) : Op T → List T × Res T
  | .pushFront v _ => (v :: l, .unit)
  | .pushBack v _ => (l ++ [v], .unit)
  | .popFront => (l.tail, first l)
  | .popBack => (l.dropLast, first l.reverse)
  | .peekFront => (l, first l)
  | .peekBack => (l, first l.reverse)

def specRun (l : List T) : List (Op T) → List (Res T)
  | [] => []
  | op :: ops => (specStep l op).2 :: specRun (specStep l op).1 ops

/-- No pop takes the last element. -/
def KeepsOne (l : List T) : List (Op T) → Prop
  | [] => True
  | op :: ops => (op = .popFront ∨ op = .popBack → l.length ≠ 1) ∧ KeepsOne (specStep l op).1 ops

/-! ## Refinement -/

/-- `k` elements of `f` from index `s`. -/
def seg (f : Int → T) (s : Int) : Nat → List T
  | 0 => []
  | k + 1 => f s :: seg f (s + 1) k

theorem seg_snoc (f : Int → T) (s : Int) (k : Nat) : seg f s (k + 1) = seg f s k ++ [f (s + k)] := by
  induction k generalizing s with
  | zero => simp [seg]
  | succ k ih =>
    rw [seg, ih, seg]
    simp only [List.cons_append]
    congr 3
    push_cast
    ring_nf

theorem seg_congr {f g : Int → T} {s : Int} {k : Nat} (h : ∀ i, s ≤ i → i < s + k → f i = g i) :
    seg f s k = seg g s k := by
  induction k generalizing s with
  | zero => rfl
  | succ k ih =>
    rw [seg, seg, h s (by omega) (by omega), ih (fun i h1 h2 => h i (by omega) (by omega))]

def contents (n : DNode T) : List T := seg n.data n.start (n.fin - n.start).toNat

structure Ok (n : DNode T) : Prop where
  lo : 0 ≤ n.start
  ne : n.start < n.fin
  hi : n.fin ≤ nodeBufferSize

theorem contents_front {n : DNode T} (h : n.start < n.fin) :
    contents n = n.data n.start :: seg n.data (n.start + 1) (n.fin - (n.start + 1)).toNat := by
  unfold contents
  rw [show (n.fin - n.start).toNat = (n.fin - (n.start + 1)).toNat + 1 by omega, seg]

theorem contents_back {n : DNode T} (h : n.start < n.fin) :
    contents n = seg n.data n.start (n.fin - 1 - n.start).toNat ++ [n.data (n.fin - 1)] := by
  unfold contents
  rw [show (n.fin - n.start).toNat = (n.fin - 1 - n.start).toNat + 1 by omega, seg_snoc]
  congr 3
  omega

theorem contents_pushFront (n : DNode T) (v : T) (h : n.start < n.fin) :
    contents { n with data := upd n.data (n.start - 1) v, start := n.start - 1 } = v :: contents n := by
  rw [contents_front (n := { n with data := upd n.data (n.start - 1) v, start := n.start - 1 })
    (show n.start - 1 < n.fin by omega)]
  simp only [upd, if_true]
  congr 1
  unfold contents
  rw [show n.start - 1 + 1 = n.start by omega]
  exact seg_congr (fun i h1 h2 => by rw [upd, if_neg (by omega)])

theorem contents_pushBack (n : DNode T) (v : T) (h : n.start < n.fin) :
    contents { n with data := upd n.data n.fin v, fin := n.fin + 1 } = contents n ++ [v] := by
  rw [contents_back (n := { n with data := upd n.data n.fin v, fin := n.fin + 1 })
    (show n.start < n.fin + 1 by omega)]
  simp only [upd, Int.add_sub_cancel, if_true]
  congr 1
  unfold contents
  exact seg_congr (fun i h1 h2 => by rw [upd, if_neg (by omega)])

/-- Neighbours in `ns` are linked both ways. -/
def Link (m : Mem (DNode T)) : List Nat → Prop
  | [] => True
  | [_] => True
  | a :: b :: ns => (m.node a).next = some b ∧ (m.node b).prev = some a ∧ Link m (b :: ns)

theorem Link.congr {m m' : Mem (DNode T)} : ∀ {ns : List Nat}, Link m ns →
    (∀ a ∈ ns.dropLast, (m'.node a).next = (m.node a).next) →
    (∀ a ∈ ns.tail, (m'.node a).prev = (m.node a).prev) → Link m' ns
  | [], _, _, _ => trivial
  | [_], _, _, _ => trivial
  | a :: b :: ns, h, e, f =>
    ⟨by rw [e a (by simp)]; exact h.1, by rw [f b (by simp)]; exact h.2.1,
      h.2.2.congr (fun c hc => e c (by simp at hc ⊢; tauto)) (fun c hc => f c (by simp at hc ⊢; tauto))⟩

theorem Link.snoc_iff {m : Mem (DNode T)} : ∀ {ns : List Nat} {t n : Nat},
    Link m (ns ++ [t, n]) ↔ Link m (ns ++ [t]) ∧ (m.node t).next = some n ∧ (m.node n).prev = some t
  | [], t, n => by simp [Link]
  | [a], t, n => by simp [Link]; tauto
  | a :: b :: ns, t, n => by
    have ih := Link.snoc_iff (m := m) (ns := b :: ns) (t := t) (n := n)
    simp only [List.cons_append, Link] at ih ⊢
    tauto

structure Rep (d : Deque T) (l : List T) (ns : List Nat) : Prop where
  live : Live d.mem ns
  head : d.head = ns.head?
  tail : d.tail = ns.getLast?
  link : Link d.mem ns
  ok : ∀ a ∈ ns, Ok (d.mem.node a)
  data : l = ns.flatMap fun a => contents (d.mem.node a)

theorem flatMap_congr' {f g : Nat → List T} {ns : List Nat} (h : ∀ a ∈ ns, f a = g a) :
    ns.flatMap f = ns.flatMap g := List.flatMap_congr h

theorem contents_one (f : Int → T) (s : Int) (nx pv : Option Nat) :
    contents (⟨f, s, s + 1, nx, pv⟩ : DNode T) = [f s] := by
  unfold contents
  rw [show (s + 1 - s).toNat = 1 by omega]
  rfl

theorem pushFront_rep {d : Deque T} {l : List T} {ns : List Nat} (r : Rep d l ns) (v : T) (c : Option Nat) :
    (pushFront d v c).2 = .unit ∧ ∃ ns', Rep (pushFront d v c).1 (v :: l) ns' := by
  cases ns with
  | nil =>
    have hh : d.head = none := by simpa using r.head
    have hl : l = [] := by simpa using r.data
    subst hl
    have hg := get_spec d.mem c r.live
    simp only [pushFront, hh]
    generalize hgc : d.mem.get c = g at hg
    obtain ⟨n, m⟩ := g
    simp only at hg ⊢
    refine ⟨trivial, [n], hg.1.set _ _, rfl, rfl, trivial, ?_, ?_⟩
    · simp only [List.mem_singleton, forall_eq, set_same]
      exact ⟨by simp, by simp, by simp [nodeBufferSize]⟩
    · have := contents_one (upd (m.node n).data 0 v) 0 (m.node n).next (m.node n).prev
      simp only [List.flatMap_cons, set_same, List.flatMap_nil, List.append_nil]
      simp only [zero_add] at this
      rw [this]
      simp [upd]
  | cons h ns =>
    have hh : d.head = some h := by simpa using r.head
    have hok := r.ok h (by simp)
    have hnd := List.nodup_cons.1 r.live.nodup
    simp only [pushFront, hh]
    by_cases hs : (d.mem.node h).start = 0
    · simp only [hs, if_true]
      have hg := get_spec d.mem c r.live
      generalize hgc : d.mem.get c = g at hg
      obtain ⟨n, m⟩ := g
      simp only at hg ⊢
      have hn := List.nodup_cons.1 hg.1.nodup
      have hne : h ≠ n := fun e => hn.1 (by simp [e])
      have hnodes : ∀ b ∈ ns, b ≠ h ∧ b ≠ n := fun b hb =>
        ⟨fun e => hnd.1 (e ▸ hb), fun e => hn.1 (by simp [← e, hb])⟩
      refine ⟨trivial, n :: h :: ns, (hg.1.set _ _).set _ _, rfl, ?_, ?_, ?_, ?_⟩
      · show d.tail = _
        rw [r.tail]
        simp
      · refine ⟨?_, ?_, ?_⟩
        · rw [set_ne _ _ hne.symm, set_same]
        · rw [set_same]
        · refine r.link.congr ?_ ?_
          · intro a ha
            have ha' : a ∈ h :: ns := List.dropLast_subset _ ha
            have han : a ≠ n := fun e => hn.1 (e ▸ ha')
            by_cases hah : a = h
            · subst hah
              simp only [set_same, set_ne _ _ han, hg.2 a ha']
            · rw [set_ne _ _ hah, set_ne _ _ han, hg.2 a ha']
          · intro a ha
            have ha' := hnodes a ha
            rw [set_ne _ _ ha'.1, set_ne _ _ ha'.2, hg.2 a (List.mem_cons_of_mem _ ha)]
      · intro a ha
        simp only [List.mem_cons] at ha
        rcases ha with rfl | rfl | ha
        · rw [set_ne _ _ hne.symm, set_same]
          exact ⟨by simp [nodeBufferSize], by simp, by simp⟩
        · rw [set_same, set_ne _ _ hne, hg.2 a (by simp)]
          exact ⟨hok.lo, hok.ne, hok.hi⟩
        · have ha' := hnodes a ha
          rw [set_ne _ _ ha'.1, set_ne _ _ ha'.2, hg.2 a (List.mem_cons_of_mem _ ha)]
          exact r.ok a (List.mem_cons_of_mem _ ha)
      · rw [List.flatMap_cons, set_ne _ _ hne.symm, set_same]
        have h1 := contents_one (upd (m.node n).data (nodeBufferSize - 1) v) (nodeBufferSize - 1) (some h) (m.node n).prev
        simp only [Int.sub_add_cancel] at h1
        rw [h1]
        simp only [upd, if_true, List.cons_append, List.nil_append]
        rw [r.data, List.flatMap_cons, List.flatMap_cons, set_same, set_ne _ _ hne, hg.2 h (by simp)]
        congr 2
        refine flatMap_congr' (fun a ha => ?_)
        have ha' := hnodes a ha
        rw [set_ne _ _ ha'.1, set_ne _ _ ha'.2, hg.2 a (List.mem_cons_of_mem _ ha)]
    · have hb : inBuf ((d.mem.node h).start - 1) = true := by
        have := hok.lo; have := hok.ne; have := hok.hi
        simp [inBuf]; omega
      simp only [hs, if_false, hb, if_true, set_same]
      have hnodes : ∀ b ∈ ns, b ≠ h := fun b hb e => hnd.1 (e ▸ hb)
      refine ⟨trivial, h :: ns, (r.live.set _ _).set _ _, rfl, r.tail, ?_, ?_, ?_⟩
      · refine r.link.congr ?_ ?_
        · intro a _
          by_cases hah : a = h
          · subst hah; simp
          · rw [set_ne _ _ hah, set_ne _ _ hah]
        · intro a ha
          rw [set_ne _ _ (hnodes a ha), set_ne _ _ (hnodes a ha)]
      · intro a ha
        rcases List.mem_cons.1 ha with rfl | ha
        · rw [set_same]
          have := hok.lo; have := hok.ne; have := hok.hi
          exact ⟨by simp only; omega, by simp only; omega, by simp only; omega⟩
        · rw [set_ne _ _ (hnodes a ha), set_ne _ _ (hnodes a ha)]
          exact r.ok a (by simp [ha])
      · rw [List.flatMap_cons, set_same, r.data, List.flatMap_cons]
        rw [contents_pushFront (d.mem.node h) v hok.ne]
        simp only [List.cons_append]
        congr 2
        refine flatMap_congr' (fun a ha => ?_)
        rw [set_ne _ _ (hnodes a ha), set_ne _ _ (hnodes a ha)]

theorem split_last {ns : List Nat} {t : Nat} (nd : (ns ++ [t]).Nodup) : ∀ b ∈ ns, b ≠ t := by
  intro b hb e
  subst e
  have := List.nodup_append.1 nd
  exact this.2.2 b hb b (by simp) rfl

theorem tail_append {ns : List Nat} {t a : Nat} (h : a ∈ (ns ++ [t]).tail) : a ∈ ns ++ [t] :=
  List.mem_of_mem_tail h

theorem pushBack_rep {d : Deque T} {l : List T} {ns : List Nat} (r : Rep d l ns) (v : T) (c : Option Nat) :
    (pushBack d v c).2 = .unit ∧ ∃ ns', Rep (pushBack d v c).1 (l ++ [v]) ns' := by
  induction ns using List.reverseRecOn with
  | nil =>
    have hh : d.tail = none := by simpa using r.tail
    have hl : l = [] := by simpa using r.data
    subst hl
    have hg := get_spec d.mem c r.live
    simp only [pushBack, hh]
    generalize hgc : d.mem.get c = g at hg
    obtain ⟨n, m⟩ := g
    simp only at hg ⊢
    refine ⟨trivial, [n], hg.1.set _ _, rfl, rfl, trivial, ?_, ?_⟩
    · simp only [List.mem_singleton, forall_eq, set_same]
      exact ⟨by simp, by simp, by simp [nodeBufferSize]⟩
    · have := contents_one (upd (m.node n).data 0 v) 0 (m.node n).next (m.node n).prev
      simp only [List.flatMap_cons, set_same, List.flatMap_nil, List.append_nil]
      simp only [zero_add] at this
      rw [this]
      simp [upd]
  | append_singleton ns t _ =>
    have hh : d.tail = some t := by simpa using r.tail
    have hok := r.ok t (by simp)
    have hnt := split_last r.live.nodup
    simp only [pushBack, hh]
    by_cases hs : (d.mem.node t).fin = nodeBufferSize
    · simp only [hs, if_true]
      have hg := get_spec d.mem c r.live
      generalize hgc : d.mem.get c = g at hg
      obtain ⟨n, m⟩ := g
      simp only at hg ⊢
      have hn := List.nodup_cons.1 hg.1.nodup
      have hne : t ≠ n := fun e => hn.1 (by simp [e])
      have hnodes : ∀ b ∈ ns, b ≠ t ∧ b ≠ n := fun b hb =>
        ⟨hnt b hb, fun e => hn.1 (by simp [← e, hb])⟩
      have eapp : ns ++ [t, n] = (ns ++ [t]) ++ [n] := by simp
      refine ⟨trivial, ns ++ [t, n], ?_, ?_, ?_, ?_, ?_, ?_⟩
      · refine ((hg.1.set _ _).set _ _).perm ?_
        rw [eapp]
        exact (List.perm_append_singleton n (ns ++ [t])).symm
      · show d.head = _
        rw [r.head]
        cases ns <;> rfl
      · simp
      · rw [Link.snoc_iff]
        refine ⟨?_, ?_, ?_⟩
        · refine r.link.congr ?_ ?_
          · intro a ha
            have ha' : a ∈ ns := by simpa using ha
            have ha'' := hnodes a ha'
            rw [set_ne _ _ ha''.1, set_ne _ _ ha''.2, hg.2 a (by simp [ha'])]
          · intro a ha
            have ha' := tail_append ha
            have han : a ≠ n := fun e => hn.1 (e ▸ ha')
            by_cases hat : a = t
            · subst hat
              simp only [set_same, set_ne _ _ han, hg.2 a ha']
            · rw [set_ne _ _ hat, set_ne _ _ han, hg.2 a ha']
        · rw [set_same]
        · rw [set_ne _ _ hne.symm, set_same]
      · intro a ha
        simp only [List.mem_append, List.mem_cons, List.not_mem_nil, or_false] at ha
        rcases ha with ha | rfl | rfl
        · have ha' := hnodes a ha
          rw [set_ne _ _ ha'.1, set_ne _ _ ha'.2, hg.2 a (by simp [ha])]
          exact r.ok a (by simp [ha])
        · rw [set_same, set_ne _ _ hne, hg.2 a (by simp)]
          exact ⟨hok.lo, hok.ne, hok.hi⟩
        · rw [set_ne _ _ hne.symm, set_same]
          exact ⟨by simp, by simp, by simp [nodeBufferSize]⟩
      · rw [eapp, List.flatMap_append, List.flatMap_cons, List.flatMap_nil, List.append_nil,
          set_ne _ _ hne.symm, set_same]
        have h1 := contents_one (upd (m.node n).data 0 v) 0 (m.node n).next (some t)
        simp only [zero_add] at h1
        rw [h1]
        simp only [upd, if_true]
        congr 1
        rw [r.data]
        refine flatMap_congr' (fun a ha => ?_)
        have han : a ≠ n := fun e => hn.1 (e ▸ ha)
        by_cases hat : a = t
        · subst hat
          rw [set_same, set_ne _ _ han, hg.2 a ha]
          rfl
        · rw [set_ne _ _ hat, set_ne _ _ han, hg.2 a ha]
    · have hb : inBuf (d.mem.node t).fin = true := by
        have := hok.lo; have := hok.ne; have := hok.hi
        simp [inBuf]; omega
      simp only [hs, if_false, hb, if_true]
      refine ⟨trivial, ns ++ [t], r.live.set _ _, r.head, ?_, ?_, ?_, ?_⟩
      · simp
      · refine r.link.congr ?_ ?_
        · intro a ha
          have ha' : a ∈ ns := by simpa using ha
          rw [set_ne _ _ (hnt a ha')]
        · intro a _
          by_cases hah : a = t
          · subst hah; simp
          · rw [set_ne _ _ hah]
      · intro a ha
        simp only [List.mem_append, List.mem_singleton] at ha
        rcases ha with ha | rfl
        · rw [set_ne _ _ (hnt a ha)]
          exact r.ok a (by simp [ha])
        · rw [set_same]
          have := hok.lo; have := hok.ne; have := hok.hi
          exact ⟨by simp only; omega, by simp only; omega, by simp only; omega⟩
      · rw [List.flatMap_append, List.flatMap_cons, List.flatMap_nil, List.append_nil, set_same, r.data,
          List.flatMap_append, List.flatMap_cons, List.flatMap_nil, List.append_nil, List.append_assoc]
        have hlt := hok.ne
        congr 1
        · refine flatMap_congr' (fun a ha => ?_)
          rw [set_ne _ _ (hnt a ha)]
        · exact (contents_pushBack (d.mem.node t) v hok.ne).symm

theorem popFront_rep {d : Deque T} {l : List T} {ns : List Nat} (r : Rep d l ns) (hl : l.length ≠ 1) :
    (popFront d).2 = first l ∧ ∃ ns', Rep (popFront d).1 l.tail ns' := by
  cases ns with
  | nil =>
    have hh : d.head = none := by simpa using r.head
    have hl : l = [] := by simpa using r.data
    subst hl
    simp only [popFront, hh]
    exact ⟨rfl, [], r⟩
  | cons h ns =>
    have hh : d.head = some h := by simpa using r.head
    have hok := r.ok h (by simp)
    have hnd := List.nodup_cons.1 r.live.nodup
    have hnodes : ∀ b ∈ ns, b ≠ h := fun b hb e => hnd.1 (e ▸ hb)
    have hb : inBuf (d.mem.node h).start = true := by
      have := hok.lo; have := hok.ne; have := hok.hi
      simp [inBuf]; omega
    have hdata := r.data
    rw [List.flatMap_cons, contents_front hok.ne] at hdata
    have hlt := hok.ne
    simp only [popFront, hh, hb, if_true, set_same, put_node]
    by_cases he : (d.mem.node h).start + 1 = (d.mem.node h).fin
    · simp only [he, if_true]
      rw [← he, show (((d.mem.node h).start + 1) - ((d.mem.node h).start + 1)).toNat = 0 by omega] at hdata
      simp only [seg, List.cons_append, List.nil_append] at hdata
      cases ns with
      | nil => exact absurd (by rw [hdata]; rfl) hl
      | cons b ns =>
        have hnx : (d.mem.node h).next = some b := r.link.1
        simp only [hnx]
        rw [hdata]
        refine ⟨rfl, b :: ns, (put_spec (r.live.set _ _)).set _ _, rfl, ?_, ?_, ?_, ?_⟩
        · show d.tail = _
          rw [r.tail]; simp
        · have hnb := List.nodup_cons.1 hnd.2
          refine r.link.2.2.congr ?_ ?_
          · intro a ha
            have ha' : a ∈ b :: ns := List.dropLast_subset _ ha
            by_cases hab : a = b
            · subst hab
              simp only [set_same]
              rw [set_ne _ _ (hnodes a ha')]
            · rw [set_ne _ _ hab]
              rw [put_node, set_ne _ _ (hnodes a ha')]
          · intro a ha
            have hab : a ≠ b := fun e => hnb.1 (e ▸ ha)
            rw [set_ne _ _ hab]
            rw [put_node, set_ne _ _ (hnodes a (by simp [show a ∈ ns from ha]))]
        · intro a ha
          have hok' := r.ok a (by simp [ha])
          by_cases hab : a = b
          · subst hab
            rw [set_same, set_ne _ _ (hnodes a ha)]
            exact ⟨hok'.lo, hok'.ne, hok'.hi⟩
          · rw [set_ne _ _ hab]
            rw [put_node, set_ne _ _ (hnodes a ha)]
            exact hok'
        · rw [List.tail_cons]
          refine flatMap_congr' (fun a ha => ?_)
          by_cases hab : a = b
          · subst hab
            rw [set_same, set_ne _ _ (hnodes a ha)]
            rfl
          · rw [set_ne _ _ hab]
            rw [put_node, set_ne _ _ (hnodes a ha)]
    · simp only [he, if_false]
      rw [hdata]
      refine ⟨rfl, h :: ns, r.live.set _ _, rfl, r.tail, ?_, ?_, ?_⟩
      · refine r.link.congr ?_ ?_
        · intro a _
          by_cases hah : a = h
          · subst hah; simp
          · rw [set_ne _ _ hah]
        · intro a ha
          rw [set_ne _ _ (hnodes a ha)]
      · intro a ha
        rcases List.mem_cons.1 ha with rfl | ha
        · rw [set_same]
          have := hok.lo; have := hok.ne; have := hok.hi
          exact ⟨by simp only; omega, by simp only; omega, by simp only; omega⟩
        · rw [set_ne _ _ (hnodes a ha)]
          exact r.ok a (by simp [ha])
      · rw [List.flatMap_cons, set_same]
        simp only [List.cons_append, List.tail_cons]
        congr 1
        refine flatMap_congr' (fun a ha => ?_)
        rw [set_ne _ _ (hnodes a ha)]

theorem popBack_rep {d : Deque T} {l : List T} {ns : List Nat} (r : Rep d l ns) (hl : l.length ≠ 1) :
    (popBack d).2 = first l.reverse ∧ ∃ ns', Rep (popBack d).1 l.dropLast ns' := by
  induction ns using List.reverseRecOn with
  | nil =>
    have hh : d.tail = none := by simpa using r.tail
    have hl : l = [] := by simpa using r.data
    subst hl
    simp only [popBack, hh]
    exact ⟨rfl, [], r⟩
  | append_singleton ns t _ =>
    have hh : d.tail = some t := by simpa using r.tail
    have hok := r.ok t (by simp)
    have hnt := split_last r.live.nodup
    have hb : inBuf ((d.mem.node t).fin - 1) = true := by
      have := hok.lo; have := hok.ne; have := hok.hi
      simp [inBuf]; omega
    have hdata := r.data
    rw [List.flatMap_append, List.flatMap_cons, List.flatMap_nil, List.append_nil,
      contents_back hok.ne, ← List.append_assoc] at hdata
    have hlt := hok.ne
    simp only [popBack, hh, set_same, hb, if_true, put_node]
    by_cases he : (d.mem.node t).start = (d.mem.node t).fin - 1
    · simp only [he, if_true]
      rw [he, show ((d.mem.node t).fin - 1 - ((d.mem.node t).fin - 1)).toNat = 0 by omega] at hdata
      simp only [seg, List.append_nil] at hdata
      cases hns : ns using List.reverseRecOn with
      | nil => subst hns; exact absurd (by rw [hdata]; rfl) hl
      | append_singleton ns b _ =>
        subst hns
        have hlink : Link d.mem (ns ++ [b, t]) := by simpa using r.link
        obtain ⟨hl1, hl2, hl3⟩ := Link.snoc_iff.1 hlink
        have hnd' : (ns ++ [b]).Nodup := (List.nodup_append.1 r.live.nodup).1
        have hnb := split_last hnd'
        simp only [hl3]
        rw [hdata, List.dropLast_concat]
        refine ⟨by simp [first], ns ++ [b], (put_spec ((r.live.set _ _).perm ?_)).set _ _, ?_, ?_, ?_, ?_, ?_⟩
        · exact List.perm_append_singleton t (ns ++ [b])
        · show d.head = _
          rw [r.head]
          cases ns <;> rfl
        · simp
        · refine hl1.congr ?_ ?_
          · intro a ha
            have ha' : a ∈ ns := by simpa using ha
            rw [set_ne _ _ (hnb a ha')]
            rw [put_node, set_ne _ _ (hnt a (by simp [ha']))]
          · intro a ha
            have ha' := tail_append ha
            by_cases hab : a = b
            · subst hab
              simp only [set_same]
              rw [set_ne _ _ (hnt a ha')]
            · rw [set_ne _ _ hab]
              rw [put_node, set_ne _ _ (hnt a ha')]
        · intro a ha
          have hok' := r.ok a (List.mem_append_left _ ha)
          by_cases hab : a = b
          · subst hab
            rw [set_same, set_ne _ _ (hnt a ha)]
            exact ⟨hok'.lo, hok'.ne, hok'.hi⟩
          · rw [set_ne _ _ hab]
            rw [put_node, set_ne _ _ (hnt a ha)]
            exact hok'
        · refine flatMap_congr' (fun a ha => ?_)
          by_cases hab : a = b
          · subst hab
            rw [set_same, set_ne _ _ (hnt a ha)]
            rfl
          · rw [set_ne _ _ hab]
            rw [put_node, set_ne _ _ (hnt a ha)]
    · simp only [he, if_false]
      rw [hdata, List.dropLast_concat]
      refine ⟨by simp [first], ns ++ [t], r.live.set _ _, r.head, ?_, ?_, ?_, ?_⟩
      · simp
      · refine r.link.congr ?_ ?_
        · intro a ha
          have ha' : a ∈ ns := by simpa using ha
          rw [set_ne _ _ (hnt a ha')]
        · intro a _
          by_cases hah : a = t
          · subst hah; simp
          · rw [set_ne _ _ hah]
      · intro a ha
        simp only [List.mem_append, List.mem_singleton] at ha
        rcases ha with ha | rfl
        · rw [set_ne _ _ (hnt a ha)]
          exact r.ok a (by simp [ha])
        · rw [set_same]
          have := hok.lo; have := hok.ne; have := hok.hi
          exact ⟨by simp only; omega, by simp only; omega, by simp only; omega⟩
      · rw [List.flatMap_append, List.flatMap_cons, List.flatMap_nil, List.append_nil, set_same]
        congr 1
        refine flatMap_congr' (fun a ha => ?_)
        rw [set_ne _ _ (hnt a ha)]

theorem peekFront_rep {d : Deque T} {l : List T} {ns : List Nat} (r : Rep d l ns) :
    peekFront d = (d, first l) := by
  cases ns with
  | nil =>
    have hh : d.head = none := by simpa using r.head
    have hl : l = [] := by simpa using r.data
    subst hl
    simp only [peekFront, hh]
    rfl
  | cons h ns =>
    have hh : d.head = some h := by simpa using r.head
    have hok := r.ok h (by simp)
    have hb : inBuf (d.mem.node h).start = true := by
      have := hok.lo; have := hok.ne; have := hok.hi
      simp [inBuf]; omega
    have hdata := r.data
    rw [List.flatMap_cons, contents_front hok.ne] at hdata
    simp only [peekFront, hh, hb, if_true, hdata]
    rfl

theorem peekBack_rep {d : Deque T} {l : List T} {ns : List Nat} (r : Rep d l ns) :
    peekBack d = (d, first l.reverse) := by
  induction ns using List.reverseRecOn with
  | nil =>
    have hh : d.tail = none := by simpa using r.tail
    have hl : l = [] := by simpa using r.data
    subst hl
    simp only [peekBack, hh]
    rfl
  | append_singleton ns t _ =>
    have hh : d.tail = some t := by simpa using r.tail
    have hok := r.ok t (by simp)
    have hb : inBuf ((d.mem.node t).fin - 1) = true := by
      have := hok.lo; have := hok.ne; have := hok.hi
      simp [inBuf]; omega
    have hdata := r.data
    rw [List.flatMap_append, List.flatMap_cons, List.flatMap_nil, List.append_nil,
      contents_back hok.ne, ← List.append_assoc] at hdata
    simp only [peekBack, hh, hb, if_true, hdata]
    simp [first]

theorem step_rep {d : Deque T} {l : List T} {ns : List Nat} (r : Rep d l ns) (op : Op T)
    (hop : op = .popFront ∨ op = .popBack → l.length ≠ 1) :
    (step d op).2 = (specStep l op).2 ∧ ∃ ns', Rep (step d op).1 (specStep l op).1 ns' := by
  cases op with
  | pushFront v c => exact pushFront_rep r v c
  | pushBack v c => exact pushBack_rep r v c
  | popFront => exact popFront_rep r (hop (by simp))
  | popBack => exact popBack_rep r (hop (by simp))
  | peekFront => simp only [step, specStep, peekFront_rep r]; exact ⟨trivial, ns, r⟩
  | peekBack => simp only [step, specStep, peekBack_rep r]; exact ⟨trivial, ns, r⟩

theorem run_rep {d : Deque T} {l : List T} {ns : List Nat} (r : Rep d l ns) (ops : List (Op T))
    (h : KeepsOne l ops) : run d ops = specRun l ops := by
  induction ops generalizing d l ns with
  | nil => rfl
  | cons op ops ih =>
    obtain ⟨e, ns', r'⟩ := step_rep r op h.1
    simp only [run, specRun, e, ih r' h.2]

theorem new_rep : Rep (new : Deque T) [] [] := ⟨Live.empty, rfl, rfl, trivial, by simp, rfl⟩

end Verif.Linked.Deque
