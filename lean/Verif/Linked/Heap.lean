import Verif.Prelude
/-!
# Heap of list nodes with a `sync.Pool`

Shared by the models of `dsx/linkedx/{queuex,stackx,listx}`. A node is `{data, next}`
(queuex.go:9-12, stackx.go:9-12, listx.go:9-12); pointers are natural numbers, `nil` is `none`.

`sync.Pool.Get` may return any object put before and not handed out since, or call `New`. The
choice is an argument: `some i` takes the `i`-th pooled node (if there is one), `none` calls `New`,
which returns a zeroed node (queuex.go:25-27, stackx.go:25-27, listx.go:25-27).
-/
set_option linter.unusedSectionVars false
namespace Verif.Linked

structure Node (T : Type) where
  data : T
  next : Option Nat

/-- A heap of nodes of type `N` with the pool that recycles them. -/
structure Mem (N : Type) where
  node : Nat → N
  brk : Nat
  pool : List Nat

variable {T : Type} [Inhabited T] {N : Type} [Inhabited N]

instance : Inhabited (Node T) := ⟨⟨default, none⟩⟩

def Mem.empty : Mem N := { node := fun _ => default, brk := 0, pool := [] }

def Mem.set (h : Mem N) (a : Nat) (n : N) : Mem N :=
  { h with node := fun b => if b = a then n else h.node b }

/-- `pool.Get()`. -/
def Mem.get (h : Mem N) (choice : Option Nat) : Nat × Mem N :=
  match choice.bind (h.pool[·]?) with
  | some a => (a, { h with pool := h.pool.erase a })
  | none => (h.brk, { h with node := fun b => if b = h.brk then default else h.node b,
                             brk := h.brk + 1 })

/-- `pool.Put(a)`. -/
def Mem.put (h : Mem N) (a : Nat) : Mem N := { h with pool := a :: h.pool }

def Mem.setData (h : Mem (Node T)) (a : Nat) (v : T) : Mem (Node T) := h.set a { h.node a with data := v }

def Mem.setNext (h : Mem (Node T)) (a : Nat) (p : Option Nat) : Mem (Node T) := h.set a { h.node a with next := p }

/-- What a call shows to its caller. `panic` stands for a panic the caller recovers from. -/
inductive Res (T : Type) where
  | unit
  | none
  | val (v : T)
  | bool (b : Bool)
  | num (n : Int)
  | vals (l : List T)
  | panic
  | hang
  deriving DecidableEq

/-- Live nodes `l`: allocated, distinct, and none of them pooled. -/
structure Live (h : Mem N) (l : List Nat) : Prop where
  nodup : l.Nodup
  lt : ∀ a ∈ l, a < h.brk
  poolLt : ∀ a ∈ h.pool, a < h.brk
  poolNodup : h.pool.Nodup
  disj : ∀ a ∈ l, a ∉ h.pool

theorem Live.perm {h : Mem N} {l l' : List Nat} (lv : Live h l) (hp : l.Perm l') : Live h l' :=
  ⟨hp.nodup_iff.1 lv.nodup, fun a ha => lv.lt a (hp.mem_iff.2 ha), lv.poolLt, lv.poolNodup,
    fun a ha => lv.disj a (hp.mem_iff.2 ha)⟩

theorem get_spec (h : Mem N) (choice : Option Nat) {l : List Nat} (lv : Live h l) :
    Live (h.get choice).2 ((h.get choice).1 :: l) ∧
      ∀ b ∈ l, (h.get choice).2.node b = h.node b := by
  unfold Mem.get
  split
  · rename_i a ha
    obtain ⟨i, hi, hai⟩ := Option.bind_eq_some_iff.1 ha
    have hmem : a ∈ h.pool := List.mem_of_getElem? hai
    refine ⟨⟨?_, ?_, ?_, ?_, ?_⟩, fun b _ => rfl⟩
    · exact List.nodup_cons.2 ⟨fun hx => lv.disj a hx hmem, lv.nodup⟩
    · intro b hb
      rcases List.mem_cons.1 hb with rfl | hb
      · exact lv.poolLt _ hmem
      · exact lv.lt b hb
    · intro b hb; exact lv.poolLt b (List.mem_of_mem_erase hb)
    · exact lv.poolNodup.erase a
    · intro b hb hp
      rcases List.mem_cons.1 hb with rfl | hb
      · exact (lv.poolNodup.mem_erase_iff.1 hp).1 rfl
      · exact lv.disj b hb (List.mem_of_mem_erase hp)
  · refine ⟨⟨?_, ?_, ?_, lv.poolNodup, ?_⟩, ?_⟩
    · exact List.nodup_cons.2 ⟨fun hx => absurd (lv.lt _ hx) (Nat.lt_irrefl _), lv.nodup⟩
    · intro b hb
      rcases List.mem_cons.1 hb with rfl | hb
      · simp
      · have := lv.lt b hb; simp; omega
    · intro b hb; have := lv.poolLt b hb; simp; omega
    · intro b hb hp
      rcases List.mem_cons.1 hb with rfl | hb
      · have := lv.poolLt _ hp; omega
      · exact lv.disj b hb hp
    · intro b hb
      have := lv.lt b hb
      simp [show b ≠ h.brk by omega]

theorem put_spec {h : Mem N} {a : Nat} {l : List Nat} (lv : Live h (a :: l)) : Live (h.put a) l := by
  have hn := List.nodup_cons.1 lv.nodup
  refine ⟨hn.2, fun b hb => lv.lt b (by simp [hb]), ?_, ?_, ?_⟩
  · intro b hb
    rcases List.mem_cons.1 hb with rfl | hb
    · exact lv.lt _ (by simp)
    · exact lv.poolLt b hb
  · exact List.nodup_cons.2 ⟨lv.disj a (by simp), lv.poolNodup⟩
  · intro b hb hp
    rcases List.mem_cons.1 hp with rfl | hp
    · exact hn.1 hb
    · exact lv.disj b (by simp [hb]) hp

theorem Live.set {h : Mem N} {l : List Nat} (lv : Live h l) (a : Nat) (n : N) : Live (h.set a n) l :=
  ⟨lv.nodup, lv.lt, lv.poolLt, lv.poolNodup, lv.disj⟩

theorem Live.setData {h : Mem (Node T)} {l : List Nat} (lv : Live h l) (a : Nat) (v : T) :
    Live (h.setData a v) l := lv.set _ _

theorem Live.setNext {h : Mem (Node T)} {l : List Nat} (lv : Live h l) (a : Nat) (p : Option Nat) :
    Live (h.setNext a p) l := lv.set _ _

theorem Live.empty : Live (Mem.empty : Mem N) [] :=
  ⟨by simp, by simp, by simp [Mem.empty], by simp [Mem.empty], by simp⟩

@[simp] theorem set_same (h : Mem N) (a : Nat) (n : N) : (h.set a n).node a = n := by simp [Mem.set]
theorem set_ne (h : Mem N) {a b : Nat} (n : N) (e : b ≠ a) : (h.set a n).node b = h.node b := by simp [Mem.set, e]
@[simp] theorem put_node (h : Mem N) (a b : Nat) : (h.put a).node b = h.node b := rfl
@[simp] theorem setData_next (h : Mem (Node T)) (a b : Nat) (v : T) : ((h.setData a v).node b).next = (h.node b).next := by
  by_cases e : b = a <;> simp [Mem.setData, Mem.set, e]
@[simp] theorem setNext_data (h : Mem (Node T)) (a b : Nat) (p : Option Nat) : ((h.setNext a p).node b).data = (h.node b).data := by
  by_cases e : b = a <;> simp [Mem.setNext, Mem.set, e]
theorem setData_same (h : Mem (Node T)) (a : Nat) (v : T) : ((h.setData a v).node a).data = v := by simp [Mem.setData, Mem.set]
theorem setData_ne (h : Mem (Node T)) {a b : Nat} (v : T) (e : b ≠ a) : (h.setData a v).node b = h.node b := by
  simp [Mem.setData, Mem.set, e]
theorem setNext_same (h : Mem (Node T)) (a : Nat) (p : Option Nat) : ((h.setNext a p).node a).next = p := by simp [Mem.setNext, Mem.set]
theorem setNext_ne (h : Mem (Node T)) {a b : Nat} (p : Option Nat) (e : b ≠ a) : (h.setNext a p).node b = h.node b := by
  simp [Mem.setNext, Mem.set, e]

end Verif.Linked
