import Verif.Linked.Heap
/-!
# The linked list `dsx/linkedx/listx`: model, specification, refinement
-/
set_option linter.unusedSectionVars false
namespace Verif.Linked.LList
open Verif.Linked

/-! ## Model -/

variable {T : Type} [Inhabited T]

/-- listx.go:16-21 `List`. -/
structure LL (T : Type) where
  mem : Mem (Node T)
  head : Option Nat
  tail : Option Nat
  length : Int

/-- listx.go:23-31 `New`. -/
def new : LL T := ⟨Mem.empty, none, none, 0⟩

/-- The methods; `append` and `insert` carry the choice of `pool.Get`. The callback of `Iterate` is
any function of what it was given so far; callbacks that modify the list are in `Verif.ListMod`. -/
inductive Op (T : Type) where
  | append (v : T) (choice : Option Nat)
  | insert (i : Int) (v : T) (choice : Option Nat)
  | remove (i : Int)
  | at (i : Int)
  | iterate (f : List T → Bool)
  | len

/-- The loops of `Insert`, `Remove` and `At` (listx.go:63-70, 86-98, 104-111): follow `next` from `p`
counting up from `i` until the counter is `target`. `none` outside: the steps ran out (a cycle). -/
def walk (m : Mem (Node T)) (target : Int) : Nat → Option Nat → Int → Option (Option Nat)
  | 0, _, _ => none
  | _ + 1, none, _ => some none
  | k + 1, some p, i => if i = target then some (some p) else walk m target k (m.node p).next (i + 1)

/-- Enough steps for any acyclic list and for any target. -/
def steps (l : LL T) (target : Int) : Nat := l.mem.brk + target.natAbs + 1

/-- listx.go:33-45 `Append`. -/
def append (l : LL T) (v : T) (choice : Option Nat) : LL T × Res T :=
  let (n, m) := l.mem.get choice
  let m := (m.setData n v).setNext n none
  match l.tail with
  | none => (⟨m, some n, some n, l.length + 1⟩, .unit)
  | some t => (⟨m.setNext t (some n), l.head, some n, l.length + 1⟩, .unit)

/-- listx.go:47-71 `Insert`. `l.Len()` in line 57 is read after `l.length++`. -/
def insert (l : LL T) (index : Int) (v : T) (choice : Option Nat) : LL T × Res T :=
  let (n, m) := l.mem.get choice
  let m := (m.setData n v).setNext n none
  if index = 0 then (⟨m.setNext n l.head, some n, l.tail, l.length + 1⟩, .unit)
  else if index = l.length + 1 then
    match l.tail with
    | none => (⟨m, l.head, l.tail, l.length + 1⟩, .panic)
    | some t => (⟨m.setNext t (some n), l.head, some n, l.length + 1⟩, .unit)
  else
    match walk m (index - 1) (steps l index) l.head 0 with
    | none => (⟨m, l.head, l.tail, l.length + 1⟩, .hang)
    | some none => (⟨m, l.head, l.tail, l.length + 1⟩, .unit)
    | some (some p) =>
      let m := m.setNext n (m.node p).next
      (⟨m.setNext p (some n), l.head, l.tail, l.length + 1⟩, .unit)

/-- listx.go:73-100 `Remove`. -/
def remove (l : LL T) (index : Int) : LL T × Res T :=
  if index = 0 then
    match l.head with
    | none => (⟨l.mem, l.head, l.tail, l.length - 1⟩, .none)
    | some a =>
      (⟨l.mem.put a, (l.mem.node a).next, l.tail, l.length - 1⟩, .val (l.mem.node a).data)
  else
    match walk l.mem (index - 1) (steps l index) l.head 0 with
    | none => (⟨l.mem, l.head, l.tail, l.length - 1⟩, .hang)
    | some none => (⟨l.mem, l.head, l.tail, l.length - 1⟩, .none)
    | some (some p) =>
      match (l.mem.node p).next with
      | none => (⟨l.mem, l.head, l.tail, l.length - 1⟩, .none)
      | some a =>
        (⟨(l.mem.put a).setNext p (l.mem.node a).next, l.head, l.tail, l.length - 1⟩, .val (l.mem.node a).data)

/-- listx.go:102-113 `At`. -/
def at' (l : LL T) (index : Int) : LL T × Res T :=
  match walk l.mem index (steps l index) l.head 0 with
  | none => (l, .hang)
  | some none => (l, .none)
  | some (some p) => (l, .val (l.mem.node p).data)

/-- listx.go:115-121 `Iterate`: the values handed to the callback. -/
def visit (m : Mem (Node T)) (f : List T → Bool) : Nat → Option Nat → List T → Option (List T)
  | 0, _, _ => none
  | _ + 1, none, acc => some acc
  | k + 1, some p, acc =>
    let acc := acc ++ [(m.node p).data]
    if f acc then visit m f k (m.node p).next acc else some acc

def iterate (l : LL T) (f : List T → Bool) : LL T × Res T :=
  match visit l.mem f (l.mem.brk + 1) l.head [] with
  | none => (l, .hang)
  | some vs => (l, .vals vs)

/-- listx.go:123-125 `Len`. -/
def len (l : LL T) : LL T × Res T := (l, .num l.length)

def step (l : LL T) : Op T → LL T × Res T
  | .append v c => append l v c
  | .insert i v c => insert l i v c
  | .remove i => remove l i
  | .at i => at' l i
  | .iterate f => iterate l f
  | .len => len l

/-- Run a history; the results in order. -/
def run (l : LL T) : List (Op T) → List (Res T)
  | [] => []
  | op :: ops => (step l op).2 :: run (step l op).1 ops

/-! ## Specification -/

/-- Element `i` of a sequence, if any. -/
def elem (l : List T) (i : Int) : Res T :=
  if 0 ≤ i then match l[i.toNat]? with
    | some x => .val x
    | none => .none
  else .none

/-- The values given to a callback that is asked after each one whether to go on. -/
def visited (f : List T → Bool) : List T → List T → List T
  | acc, [] => acc
  | acc, x :: l => if f (acc ++ [x]) then visited f (acc ++ [x]) l else acc ++ [x]

/-- The operations on a sequence. `Insert` outside `0..Len` is outside the contract: left undefined
by `Safe` below (here: no effect). -/
def specStep (l : List T) : Op T → List T × Res T
  | .append v _ => (l ++ [v], .unit)
  | .insert i v _ => (if 0 ≤ i then l.insertIdx i.toNat v else l, .unit)
  | .remove i => (if 0 ≤ i then l.eraseIdx i.toNat else l, elem l i)
  | .at i => (l, elem l i)
  | .iterate f => (l, .vals (visited f [] l))
  | .len => (l, .num l.length)

def specRun (l : List T) : List (Op T) → List (Res T)
  | [] => []
  | op :: ops => (specStep l op).2 :: specRun (specStep l op).1 ops

/-- The call is in the contract, and it does not append after the end of the list was changed by
something other than `Append` (`fresh`). -/
def SafeOp (fresh : Bool) (l : List T) : Op T → Prop
  | .append _ _ => fresh = true
  | .insert i _ _ => 0 ≤ i ∧ i ≤ l.length
  | .remove i => 0 ≤ i ∧ i < l.length
  | _ => True

/-- Does the end of the list stay what `Append` made it? -/
def stays (l : List T) : Op T → Bool
  | .insert i _ _ => decide (i < l.length)
  | .remove i => decide (i + 1 < l.length)
  | _ => true

def Safe (fresh : Bool) (l : List T) : List (Op T) → Prop
  | [] => True
  | op :: ops => SafeOp fresh l op ∧ Safe (fresh && stays l op) (specStep l op).1 ops

/-! ## Refinement -/

/-- Following `next` from `p` visits `ns` and arrives at `q`. -/
def Seg (m : Mem (Node T)) : Option Nat → List Nat → Option Nat → Prop
  | p, [], q => p = q
  | p, a :: ns, q => p = some a ∧ Seg m (m.node a).next ns q

theorem Seg.congr {m m' : Mem (Node T)} : ∀ {ns : List Nat} {p q : Option Nat}, Seg m p ns q →
    (∀ a ∈ ns, (m'.node a).next = (m.node a).next) → Seg m' p ns q
  | [], _, _, h, _ => h
  | a :: ns, p, _, h, e => ⟨h.1, by rw [e a (by simp)]; exact h.2.congr (fun b hb => e b (by simp [hb]))⟩

theorem Seg.append {m : Mem (Node T)} : ∀ {xs ys : List Nat} {p q : Option Nat},
    Seg m p (xs ++ ys) q ↔ ∃ r, Seg m p xs r ∧ Seg m r ys q
  | [], ys, p, q => by simp [Seg]
  | a :: xs, ys, p, q => by
    simp only [List.cons_append, Seg, Seg.append (xs := xs)]
    constructor
    · rintro ⟨h, r, h1, h2⟩; exact ⟨r, ⟨h, h1⟩, h2⟩
    · rintro ⟨r, ⟨h, h1⟩, h2⟩; exact ⟨h, r, h1, h2⟩

theorem walk_spec {m : Mem (Node T)} {target : Int} : ∀ {ns : List Nat} {p : Option Nat} {k : Nat} {i : Int},
    Seg m p ns none → ns.length < k →
    walk m target k p i = some (if i ≤ target then ns[(target - i).toNat]? else none)
  | [], p, k + 1, i, h, _ => by
    have : p = none := h
    subst this
    simp [walk]
  | a :: ns, p, k + 1, i, h, hk => by
    rw [h.1, walk]
    by_cases hi : i = target
    · subst hi; simp
    · rw [if_neg hi, walk_spec h.2 (by simp at hk; omega)]
      by_cases hlt : i ≤ target
      · rw [if_pos hlt, if_pos (by omega), show (target - i).toNat = (target - (i + 1)).toNat + 1 by omega]
        simp
      · rw [if_neg hlt, if_neg (by omega)]

theorem visit_spec {m : Mem (Node T)} {f : List T → Bool} : ∀ {ns : List Nat} {p : Option Nat} {k : Nat} {acc : List T},
    Seg m p ns none → ns.length < k →
    visit m f k p acc = some (visited f acc (ns.map fun a => (m.node a).data))
  | [], p, k + 1, acc, h, _ => by
    have : p = none := h
    subst this
    simp [visit, visited]
  | a :: ns, p, k + 1, acc, h, hk => by
    rw [h.1, visit]
    simp only [List.map_cons, visited]
    split
    · rw [visit_spec h.2 (by simp at hk; omega)]
    · rfl

structure Rep (fresh : Bool) (s : LL T) (l : List T) (ns : List Nat) : Prop where
  live : Live s.mem ns
  seg : Seg s.mem s.head ns none
  tail : fresh = true → s.tail = ns.getLast?
  data : l = ns.map fun a => (s.mem.node a).data
  len : s.length = l.length

theorem Live.length_le {m : Mem (Node T)} {ns : List Nat} (lv : Live m ns) : ns.length ≤ m.brk := by
  have h : ns ⊆ List.range m.brk := fun a ha => List.mem_range.2 (lv.lt a ha)
  simpa using (lv.nodup.subperm h).length_le

theorem walk_rep {fresh : Bool} {s : LL T} {l : List T} {ns : List Nat} (r : Rep fresh s l ns) (target idx : Int) :
    walk s.mem target (steps s idx) s.head 0 = some (if 0 ≤ target then ns[target.toNat]? else none) := by
  have := Live.length_le r.live
  rw [walk_spec r.seg (by simp only [steps]; omega)]
  simp

theorem append_rep {s : LL T} {l : List T} {ns : List Nat} (r : Rep true s l ns) (v : T) (c : Option Nat) :
    (append s v c).2 = .unit ∧ ∃ ns', Rep true (append s v c).1 (l ++ [v]) ns' := by
  have hg := get_spec s.mem c r.live
  simp only [append]
  generalize hgc : s.mem.get c = g at hg
  obtain ⟨n, m⟩ := g
  simp only at hg ⊢
  have hn := List.nodup_cons.1 hg.1.nodup
  have htail := r.tail rfl
  induction ns using List.reverseRecOn with
  | nil =>
    have hl : l = [] := by simpa using r.data
    subst hl
    have hlen := r.len
    simp only [List.getLast?_nil] at htail
    simp only [htail]
    refine ⟨trivial, [n], (hg.1.setData _ _).setNext _ _, ⟨rfl, ?_⟩, fun _ => rfl, ?_, ?_⟩
    · rw [setNext_same]; rfl
    · simp [setData_same]
    · simp [hlen]
  | append_singleton ns t _ =>
    have hne : t ≠ n := fun e => hn.1 (by simp [e])
    have hnt : ∀ b ∈ ns, b ≠ t := by
      intro b hb e
      subst e
      exact (List.nodup_append.1 r.live.nodup).2.2 b hb b (by simp) rfl
    have hnn : ∀ b ∈ ns, b ≠ n := fun b hb e => hn.1 (by simp [← e, hb])
    simp only [List.getLast?_append, List.getLast?_singleton, Option.some_or] at htail
    simp only [htail]
    have eapp : ns ++ [t, n] = (ns ++ [t]) ++ [n] := by simp
    obtain ⟨q, hs1, hs2⟩ := Seg.append.1 r.seg
    refine ⟨trivial, ns ++ [t, n], ?_, ?_, ?_, ?_, ?_⟩
    · refine (((hg.1.setData _ _).setNext _ _).setNext _ _).perm ?_
      rw [eapp]
      exact (List.perm_append_singleton n (ns ++ [t])).symm
    · refine Seg.append.2 ⟨q, hs1.congr ?_, hs2.1, ?_⟩
      · intro b hb
        rw [setNext_ne _ _ (hnt b hb), setNext_ne _ _ (hnn b hb), setData_ne _ _ (hnn b hb), hg.2 b (by simp [hb])]
      · rw [setNext_same]
        refine ⟨rfl, ?_⟩
        rw [setNext_ne _ _ hne.symm, setNext_same]
        rfl
    · intro _; simp
    · rw [eapp, List.map_append, r.data]
      simp only [setNext_data, List.map_cons, List.map_nil, setData_same]
      congr 1
      refine List.map_congr_left (fun b hb => ?_)
      have hbn : b ≠ n := fun e => hn.1 (e ▸ hb)
      rw [setData_ne _ _ hbn, hg.2 b hb]
    · simp [r.len]

theorem insert_rep {fresh : Bool} {s : LL T} {l : List T} {ns : List Nat} (r : Rep fresh s l ns) (i : Int) (v : T)
    (c : Option Nat) (h0 : 0 ≤ i) (h1 : i ≤ l.length) :
    (insert s i v c).2 = .unit ∧
      ∃ ns', Rep (fresh && decide (i < l.length)) (insert s i v c).1 (l.insertIdx i.toNat v) ns' := by
  have hg := get_spec s.mem c r.live
  have hlenl : l.length = ns.length := by rw [r.data]; simp
  simp only [insert]
  generalize hgc : s.mem.get c = g at hg
  obtain ⟨n, m⟩ := g
  simp only at hg ⊢
  have hn := List.nodup_cons.1 hg.1.nodup
  have hnn : ∀ b ∈ ns, b ≠ n := fun b hb e => hn.1 (e ▸ hb)
  by_cases hi : i = 0
  · subst hi
    simp only [if_true]
    refine ⟨trivial, n :: ns, ((hg.1.setData _ _).setNext _ _).setNext _ _, ⟨rfl, ?_⟩, ?_, ?_, ?_⟩
    · rw [setNext_same]
      refine r.seg.congr (fun b hb => ?_)
      rw [setNext_ne _ _ (hnn b hb), setNext_ne _ _ (hnn b hb), setData_ne _ _ (hnn b hb), hg.2 b hb]
    · intro hf
      simp only [Bool.and_eq_true, decide_eq_true_eq] at hf
      show s.tail = _
      rw [r.tail hf.1]
      cases ns with
      | nil => simp only [List.length_nil] at hlenl; omega
      | cons b ns => simp
    · simp only [Int.toNat_zero, List.insertIdx_zero, List.map_cons, setNext_data, setData_same, r.data]
      congr 1
      refine List.map_congr_left (fun b hb => ?_)
      rw [setData_ne _ _ (hnn b hb), hg.2 b hb]
    · simp [r.len]
  · rw [if_neg hi, if_neg (by rw [r.len]; omega)]
    have hmm : ∀ a ∈ ns, (((m.setData n v).setNext n none).node a).next = (s.mem.node a).next := by
      intro b hb
      rw [setNext_ne _ _ (hnn b hb), setData_ne _ _ (hnn b hb), hg.2 b hb]
    have hw' : walk ((m.setData n v).setNext n none) (i - 1) (steps s i) s.head 0 =
        some (if 0 ≤ i - 1 then ns[(i - 1).toNat]? else none) := by
      have := Live.length_le r.live
      rw [walk_spec (r.seg.congr hmm) (by simp only [steps]; omega)]
      simp
    rw [if_pos (by omega)] at hw'
    have hlt : (i - 1).toNat < ns.length := by omega
    rw [List.getElem?_eq_getElem hlt] at hw'
    rw [hw']
    simp only
    set p := ns[(i - 1).toNat] with hp
    have hsplit : ns = ns.take (i - 1).toNat ++ p :: ns.drop i.toNat := by
      have e : i.toNat = (i - 1).toNat + 1 := by omega
      rw [e, hp, List.cons_getElem_drop_succ, List.take_append_drop]
    set xs := ns.take (i - 1).toNat with hxs
    set ys := ns.drop i.toNat with hys
    have hxl : xs.length + 1 = i.toNat := by rw [hxs, List.length_take]; omega
    have hnd := r.live.nodup
    rw [hsplit] at hnd
    have hpmem : p ∈ ns := by rw [hsplit]; simp
    have hpx : ∀ b ∈ xs, b ≠ p := by
      intro b hb e
      subst e
      exact (List.nodup_append.1 hnd).2.2 p hb p (by simp) rfl
    have hpy : ∀ b ∈ ys, b ≠ p := by
      intro b hb e
      subst e
      exact (List.nodup_cons.1 (List.nodup_append.1 hnd).2.1).1 hb
    have hxn : ∀ b ∈ xs, b ∈ ns := fun b hb => by rw [hsplit]; simp [hb]
    have hyn : ∀ b ∈ ys, b ∈ ns := fun b hb => by rw [hsplit]; simp [hb]
    have hseg := r.seg
    rw [hsplit] at hseg
    obtain ⟨q, hs1, hs2, hs3⟩ := Seg.append.1 hseg
    have hdata := r.data
    have hnp : n ≠ p := fun e => hn.1 (e ▸ hpmem)
    refine ⟨trivial, xs ++ p :: n :: ys, ?_, ?_, ?_, ?_, ?_⟩
    · refine ((((hg.1.setData _ _).setNext _ _).setNext _ _).setNext _ _).perm ?_
      rw [hsplit]
      have := List.perm_middle (a := n) (l₁ := xs ++ [p]) (l₂ := ys)
      simpa using this.symm
    · refine Seg.append.2 ⟨q, hs1.congr ?_, hs2, ?_⟩
      · intro b hb
        rw [setNext_ne _ _ (hpx b hb), setNext_ne _ _ (hnn b (hxn b hb)), hmm b (hxn b hb)]
      · rw [setNext_same]
        refine ⟨rfl, ?_⟩
        rw [setNext_ne _ _ hnp, setNext_same, hmm p hpmem]
        refine hs3.congr (fun b hb => ?_)
        rw [setNext_ne _ _ (hpy b hb), setNext_ne _ _ (hnn b (hyn b hb)), hmm b (hyn b hb)]
    · intro hf
      simp only [Bool.and_eq_true, decide_eq_true_eq] at hf
      show s.tail = _
      rw [r.tail hf.1]
      have : ys ≠ [] := by
        rw [hys]
        simp only [ne_eq, List.drop_eq_nil_iff, not_le]
        omega
      conv_lhs => rw [hsplit]
      obtain ⟨y, ys', e⟩ := List.exists_cons_of_ne_nil this
      rw [e]
      simp
    · have e1 : l = xs.map (fun a => (s.mem.node a).data) ++ (s.mem.node p).data :: ys.map (fun a => (s.mem.node a).data) := by
        rw [hdata]; conv_lhs => rw [hsplit]
        simp
      rw [e1, ← hxl]
      have e2 : ∀ (A : List T) (b : T) (B : List T), (A ++ b :: B).insertIdx (A.length + 1) v = A ++ b :: v :: B := by
        intro A
        induction A with
        | nil => intro b B; simp
        | cons a A ih => intro b B; simp [ih]
      have e3 := e2 (xs.map (fun a => (s.mem.node a).data)) (s.mem.node p).data (ys.map (fun a => (s.mem.node a).data))
      rw [List.length_map] at e3
      rw [e3]
      simp only [List.map_append, List.map_cons, setNext_data, setData_same]
      rw [setData_ne _ _ hnp.symm, hg.2 p hpmem]
      congr 1
      · refine List.map_congr_left (fun b hb => ?_)
        rw [setData_ne _ _ (hnn b (hxn b hb)), hg.2 b (hxn b hb)]
      · congr 2
        refine List.map_congr_left (fun b hb => ?_)
        rw [setData_ne _ _ (hnn b (hyn b hb)), hg.2 b (hyn b hb)]
    · rw [List.length_insertIdx_of_le_length (by omega)]
      simp [r.len]

theorem remove_rep {fresh : Bool} {s : LL T} {l : List T} {ns : List Nat} (r : Rep fresh s l ns) (i : Int)
    (h0 : 0 ≤ i) (h1 : i < l.length) :
    (remove s i).2 = elem l i ∧
      ∃ ns', Rep (fresh && decide (i + 1 < l.length)) (remove s i).1 (l.eraseIdx i.toNat) ns' := by
  have hlenl : l.length = ns.length := by rw [r.data]; simp
  have hlt : i.toNat < ns.length := by omega
  have hel : elem l i = .val (s.mem.node ns[i.toNat]).data := by
    have : l[i.toNat]? = some (s.mem.node ns[i.toNat]).data := by
      conv_lhs => rw [r.data]
      simp [hlt]
    simp only [elem, h0, if_true, this]
  rw [hel]
  simp only [remove]
  by_cases hi : i = 0
  · subst hi
    simp only [if_true]
    cases ns with
    | nil => simp at hlt
    | cons a ns =>
      have hh : s.head = some a := r.seg.1
      simp only [hh]
      refine ⟨rfl, ns, put_spec r.live, r.seg.2.congr (fun _ _ => rfl), ?_, ?_, ?_⟩
      · intro hf
        simp only [Bool.and_eq_true, decide_eq_true_eq] at hf
        show s.tail = _
        rw [r.tail hf.1]
        cases ns with
        | nil => simp at hlenl; omega
        | cons b ns => simp
      · rw [r.data]; simp
      · have := r.len
        rw [List.length_eraseIdx]
        split <;> simp <;> omega
  · rw [if_neg hi, walk_rep r, if_pos (by omega)]
    have hltp : (i - 1).toNat < ns.length := by omega
    rw [List.getElem?_eq_getElem hltp]
    simp only
    set p := ns[(i - 1).toNat] with hp
    set a := ns[i.toNat] with ha
    have hsplit : ns = ns.take (i - 1).toNat ++ p :: a :: ns.drop (i.toNat + 1) := by
      have e : i.toNat = (i - 1).toNat + 1 := by omega
      rw [ha, List.cons_getElem_drop_succ, hp]
      conv_rhs => rw [e]
      rw [List.cons_getElem_drop_succ, List.take_append_drop]
    set xs := ns.take (i - 1).toNat with hxs
    set ys := ns.drop (i.toNat + 1) with hys
    have hxl : xs.length + 1 = i.toNat := by rw [hxs, List.length_take]; omega
    have hnd := r.live.nodup
    rw [hsplit] at hnd
    have hpx : ∀ b ∈ xs, b ≠ p := by
      intro b hb e
      subst e
      exact (List.nodup_append.1 hnd).2.2 p hb p (by simp) rfl
    have hpy : ∀ b ∈ a :: ys, b ≠ p := by
      intro b hb e
      subst e
      exact (List.nodup_cons.1 (List.nodup_append.1 hnd).2.1).1 hb
    have hseg := r.seg
    rw [hsplit] at hseg
    obtain ⟨q, hs1, hs2, hs3, hs4⟩ := Seg.append.1 hseg
    simp only [hs3]
    refine ⟨trivial, xs ++ p :: ys, ?_, ?_, ?_, ?_, ?_⟩
    · refine (put_spec (r.live.perm ?_)).setNext _ _
      conv_lhs => rw [hsplit]
      have := List.perm_middle (a := a) (l₁ := xs ++ [p]) (l₂ := ys)
      simpa using this
    · refine Seg.append.2 ⟨q, hs1.congr ?_, hs2, ?_⟩
      · intro b hb
        rw [setNext_ne _ _ (hpx b hb), put_node]
      · rw [setNext_same]
        refine hs4.congr (fun b hb => ?_)
        rw [setNext_ne _ _ (hpy b (by simp [hb])), put_node]
    · intro hf
      simp only [Bool.and_eq_true, decide_eq_true_eq] at hf
      show s.tail = _
      rw [r.tail hf.1]
      have : ys ≠ [] := by
        rw [hys]
        simp only [ne_eq, List.drop_eq_nil_iff, not_le]
        omega
      conv_lhs => rw [hsplit]
      obtain ⟨y, ys', e⟩ := List.exists_cons_of_ne_nil this
      rw [e]
      simp
    · have e1 : l = xs.map (fun a => (s.mem.node a).data) ++ (s.mem.node p).data :: (s.mem.node a).data ::
          ys.map (fun a => (s.mem.node a).data) := by
        rw [r.data]; conv_lhs => rw [hsplit]
        simp
      rw [e1, ← hxl]
      have e2 : ∀ (A : List T) (b c : T) (B : List T), (A ++ b :: c :: B).eraseIdx (A.length + 1) = A ++ b :: B := by
        intro A
        induction A with
        | nil => intro b c B; simp
        | cons a A ih => intro b c B; simp [ih]
      have e3 := e2 (xs.map (fun a => (s.mem.node a).data)) (s.mem.node p).data (s.mem.node a).data
        (ys.map (fun a => (s.mem.node a).data))
      rw [List.length_map] at e3
      rw [e3]
      simp [setNext_data]
    · have := r.len
      rw [List.length_eraseIdx, if_pos (by omega)]
      simp only; omega

theorem step_rep {fresh : Bool} {s : LL T} {l : List T} {ns : List Nat} (r : Rep fresh s l ns) (op : Op T)
    (h : SafeOp fresh l op) :
    (step s op).2 = (specStep l op).2 ∧ ∃ ns', Rep (fresh && stays l op) (step s op).1 (specStep l op).1 ns' := by
  cases op with
  | append v c =>
    have hf : fresh = true := h
    subst hf
    exact append_rep r v c
  | insert i v c =>
    have := insert_rep r i v c h.1 h.2
    simpa only [step, specStep, stays, if_pos h.1] using this
  | remove i =>
    have := remove_rep r i h.1 h.2
    simpa only [step, specStep, stays, if_pos h.1] using this
  | «at» i =>
    simp only [step, specStep, at', walk_rep r, stays, Bool.and_true]
    have hel : ∀ o : Option Nat, o = (if 0 ≤ i then ns[i.toNat]? else none) →
        elem l i = (match o with | none => .none | some p => .val (s.mem.node p).data) := by
      intro o ho
      unfold elem
      by_cases hi : 0 ≤ i
      · rw [if_pos hi] at ho
        rw [if_pos hi, r.data, List.getElem?_map, ← ho]
        cases o <;> rfl
      · rw [if_neg hi] at ho
        rw [if_neg hi, ho]
    generalize ho : (if 0 ≤ i then ns[i.toNat]? else none) = o at hel ⊢
    rw [hel o rfl]
    cases o <;> exact ⟨rfl, ns, r⟩
  | iterate f =>
    have := Live.length_le r.live
    simp only [step, specStep, iterate, stays, Bool.and_true, visit_spec (f := f) r.seg (show _ < s.mem.brk + 1 by omega)]
    rw [r.data]
    exact ⟨rfl, ns, r.data ▸ r⟩
  | len =>
    simp only [step, specStep, len, stays, Bool.and_true, r.len]
    exact ⟨trivial, ns, r⟩

theorem run_rep {fresh : Bool} {s : LL T} {l : List T} {ns : List Nat} (r : Rep fresh s l ns) (ops : List (Op T))
    (h : Safe fresh l ops) : run s ops = specRun l ops := by
  induction ops generalizing fresh s l ns with
  | nil => rfl
  | cons op ops ih =>
    obtain ⟨e, ns', r'⟩ := step_rep r op h.1
    simp only [run, specRun, e, ih r' h.2]

theorem new_rep : Rep true (new : LL T) [] [] := ⟨Live.empty, rfl, fun _ => rfl, rfl, rfl⟩

end Verif.Linked.LList
