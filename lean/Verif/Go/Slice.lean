import Verif.Prelude
import Verif.Go.Basic
/-!
# Slices over memory

A slice is an array number, an offset, a length and a capacity; memory maps array numbers and
indices to elements. `append` writes in place when the capacity suffices and otherwise allocates an
array with any capacity that is large enough (`grow` is the surplus, an arbitrary number). Elements
appended are read before anything is written, as `memmove` does. Running out of memory is not
modelled.
-/
namespace Verif.Go

/-- A slice header; `nil` has length and capacity 0. -/
structure Sl where
  arr : Nat
  off : Nat
  len : Nat
  cap : Nat
  deriving DecidableEq, Repr

/-- Memory; arrays from `brk` on are not allocated yet. -/
structure Hp (T : Type) where
  mem : Nat → Nat → T
  brk : Nat

variable {T : Type}

/-- The elements of a slice. -/
def elems (h : Hp T) (s : Sl) : List T := (List.range s.len).map fun k => h.mem s.arr (s.off + k)

/-- A slice a program can hold: the length is within the capacity, the array is allocated. -/
structure Sl.Ok (h : Hp T) (s : Sl) : Prop where
  le : s.len ≤ s.cap
  lt : 0 < s.cap → s.arr < h.brk

/-- The nil slice. -/
def Sl.nil : Sl := ⟨0, 0, 0, 0⟩

/-- Write `vs` from index `o` of array `a` on. -/
def Hp.blit (h : Hp T) (a o : Nat) (vs : List T) : Hp T :=
  { h with mem := fun b i => if b = a ∧ o ≤ i then (vs[i - o]?).getD (h.mem b i) else h.mem b i }

/-- A new array holding `vs` and `grow` more zero values; the slice of its first `vs.length`. -/
def Hp.alloc [Inhabited T] (h : Hp T) (vs : List T) (grow : Nat) : Hp T × Sl :=
  ({ mem := fun b i => if b = h.brk then (vs[i]?).getD default else h.mem b i, brk := h.brk + 1 },
    ⟨h.brk, 0, vs.length, vs.length + grow⟩)

/-- `append(s, vs...)`. -/
def append [Inhabited T] (h : Hp T) (grow : Nat) (s : Sl) (vs : List T) : Hp T × Sl :=
  if s.len + vs.length ≤ s.cap then
    (h.blit s.arr (s.off + s.len) vs, { s with len := s.len + vs.length })
  else h.alloc (elems h s ++ vs) grow

/-- `s[lo:hi]`. -/
def reslice (s : Sl) (lo hi : Int) : Outcome Sl :=
  if 0 ≤ lo ∧ lo ≤ hi ∧ hi ≤ s.cap then
    .ret ⟨s.arr, s.off + lo.toNat, (hi - lo).toNat, s.cap - lo.toNat⟩
  else .panic

/-- `s[i]`. -/
def index (h : Hp T) (s : Sl) (i : Int) : Outcome T :=
  if 0 ≤ i ∧ i < s.len then .ret (h.mem s.arr (s.off + i.toNat)) else .panic

/-- `s[i] = v`. -/
def store (h : Hp T) (s : Sl) (i : Int) (v : T) : Outcome (Hp T) :=
  if 0 ≤ i ∧ i < s.len then .ret (h.blit s.arr (s.off + i.toNat) [v]) else .panic

/-- `copy(dst, src)`. -/
def copySl (h : Hp T) (dst src : Sl) : Hp T := h.blit dst.arr dst.off ((elems h src).take dst.len)

/-! ## Lemmas -/

@[simp] theorem elems_length (h : Hp T) (s : Sl) : (elems h s).length = s.len := by simp [elems]

theorem elems_getElem? (h : Hp T) (s : Sl) (k : Nat) :
    (elems h s)[k]? = if k < s.len then some (h.mem s.arr (s.off + k)) else none := by
  unfold elems
  rw [List.getElem?_map]
  by_cases hk : k < s.len <;> simp [hk]

theorem elems_ext {h : Hp T} {s : Sl} {l : List T} (hl : s.len = l.length)
    (he : ∀ k, k < s.len → l[k]? = some (h.mem s.arr (s.off + k))) : elems h s = l := by
  apply List.ext_getElem?
  intro k
  rw [elems_getElem?]
  by_cases hk : k < s.len
  · rw [if_pos hk, he k hk]
  · rw [if_neg hk, List.getElem?_eq_none (by omega)]

theorem elems_congr {h h' : Hp T} {s : Sl}
    (he : ∀ k, k < s.len → h'.mem s.arr (s.off + k) = h.mem s.arr (s.off + k)) : elems h' s = elems h s :=
  elems_ext (by simp) (fun k hk => by rw [elems_getElem?, if_pos hk, he k hk])

theorem blit_mem (h : Hp T) (a o : Nat) (vs : List T) (b i : Nat) :
    (h.blit a o vs).mem b i = if b = a ∧ o ≤ i then (vs[i - o]?).getD (h.mem b i) else h.mem b i := rfl

@[simp] theorem blit_brk (h : Hp T) (a o : Nat) (vs : List T) : (h.blit a o vs).brk = h.brk := rfl

theorem blit_out (h : Hp T) (a o : Nat) (vs : List T) (b i : Nat)
    (hx : b ≠ a ∨ i < o ∨ o + vs.length ≤ i) : (h.blit a o vs).mem b i = h.mem b i := by
  rw [blit_mem]
  split
  · rw [List.getElem?_eq_none (by omega)]; rfl
  · rfl

theorem blit_in (h : Hp T) (a o : Nat) (vs : List T) (i : Nat) (v : T)
    (h1 : o ≤ i) (hv : vs[i - o]? = some v) : (h.blit a o vs).mem a i = v := by
  rw [blit_mem, if_pos ⟨rfl, h1⟩, hv]; rfl

theorem Sl.Ok.mono {h h' : Hp T} {s : Sl} (o : s.Ok h) (hb : h.brk ≤ h'.brk) : s.Ok h' :=
  ⟨o.le, fun hc => Nat.lt_of_lt_of_le (o.lt hc) hb⟩

theorem Sl.nil_ok (h : Hp T) : Sl.nil.Ok h := ⟨Nat.le_refl _, fun hc => absurd hc (by simp [Sl.nil])⟩

@[simp] theorem elems_nil (h : Hp T) : elems h Sl.nil = [] := rfl

variable [Inhabited T]

theorem alloc_ok (h : Hp T) (vs : List T) (g : Nat) : (h.alloc vs g).2.Ok (h.alloc vs g).1 :=
  ⟨by simp [Hp.alloc], fun _ => by simp [Hp.alloc]⟩

@[simp] theorem alloc_elems (h : Hp T) (vs : List T) (g : Nat) : elems (h.alloc vs g).1 (h.alloc vs g).2 = vs :=
  elems_ext rfl (fun k hk => by
    have hk' : k < vs.length := hk
    simp [Hp.alloc, hk'])

theorem alloc_out (h : Hp T) (vs : List T) (g : Nat) (b i : Nat) (hb : b < h.brk) :
    (h.alloc vs g).1.mem b i = h.mem b i := by
  simp only [Hp.alloc]
  rw [if_neg (by omega)]

theorem append_brk (h : Hp T) (g : Nat) (s : Sl) (vs : List T) : h.brk ≤ (append h g s vs).1.brk := by
  unfold append
  split
  · exact Nat.le_refl _
  · exact Nat.le_succ _

theorem append_ok (h : Hp T) (g : Nat) {s : Sl} (vs : List T) (o : s.Ok h) :
    (append h g s vs).2.Ok (append h g s vs).1 := by
  unfold append
  split
  · exact ⟨by assumption, o.lt⟩
  · exact alloc_ok _ _ _

theorem append_elems (h : Hp T) (g : Nat) (s : Sl) (vs : List T) :
    elems (append h g s vs).1 (append h g s vs).2 = elems h s ++ vs := by
  unfold append
  split
  · refine elems_ext (by simp) (fun k hk => ?_)
    simp only at hk ⊢
    by_cases hk2 : k < s.len
    · rw [List.getElem?_append_left (by simpa using hk2), elems_getElem?, if_pos hk2, blit_out _ _ _ _ _ _ (by omega)]
    · have e : s.off + k - (s.off + s.len) = k - s.len := by omega
      rw [List.getElem?_append_right (by simp; omega), elems_length, List.getElem?_eq_getElem (by omega)]
      rw [blit_in _ _ _ _ _ vs[k - s.len] (by omega) (by rw [e, List.getElem?_eq_getElem])]
  · exact alloc_elems _ _ _

/-- Only the spare capacity of the slice is written. -/
theorem append_out (h : Hp T) (g : Nat) (s : Sl) (vs : List T) (b i : Nat) (hb : b < h.brk)
    (hx : b ≠ s.arr ∨ i < s.off + s.len ∨ s.off + s.cap ≤ i ∨ s.off + s.len + vs.length ≤ i) :
    (append h g s vs).1.mem b i = h.mem b i := by
  unfold append
  split
  · exact blit_out _ _ _ _ _ _ (by omega)
  · exact alloc_out _ _ _ _ _ hb

theorem reslice_ret {s : Sl} {lo hi : Int} (h0 : 0 ≤ lo) (h1 : lo ≤ hi) (h2 : hi ≤ s.cap) :
    reslice s lo hi = .ret ⟨s.arr, s.off + lo.toNat, (hi - lo).toNat, s.cap - lo.toNat⟩ :=
  if_pos ⟨h0, h1, h2⟩

omit [Inhabited T] in
theorem window_ok {h : Hp T} {s : Sl} (o : s.Ok h) (a b : Nat) (h1 : a ≤ b) (h2 : b ≤ s.cap) :
    (⟨s.arr, s.off + a, b - a, s.cap - a⟩ : Sl).Ok h :=
  ⟨by simp only; omega, fun hc => o.lt (by simp only at hc; omega)⟩

omit [Inhabited T] in
theorem window_elems (h : Hp T) (s : Sl) (a b c : Nat) (h2 : b ≤ s.len) :
    elems h ⟨s.arr, s.off + a, b - a, c⟩ = ((elems h s).take b).drop a := by
  refine elems_ext (by simp; omega) (fun k hk => ?_)
  simp only at hk ⊢
  rw [List.getElem?_drop, List.getElem?_take, if_pos (by omega), elems_getElem?, if_pos (by omega)]
  congr 2
  omega

omit [Inhabited T] in
theorem index_ret (h : Hp T) {s : Sl} {i : Int} (h0 : 0 ≤ i) (h1 : i < s.len) :
    ∃ v, index h s i = .ret v ∧ (elems h s)[i.toNat]? = some v :=
  ⟨_, if_pos ⟨h0, h1⟩, by rw [elems_getElem?, if_pos (by omega)]⟩

omit [Inhabited T] in
theorem store_ret (h : Hp T) {s : Sl} {i : Int} (v : T) (h0 : 0 ≤ i) (h1 : i < s.len) :
    ∃ h', store h s i v = .ret h' ∧ h'.brk = h.brk ∧ elems h' s = (elems h s).set i.toNat v ∧
      ∀ b k, (b ≠ s.arr ∨ k ≠ s.off + i.toNat) → h'.mem b k = h.mem b k := by
  refine ⟨_, if_pos ⟨h0, h1⟩, rfl, ?_, ?_⟩
  · refine elems_ext (by simp) (fun k hk => ?_)
    rw [List.getElem?_set]
    by_cases e : i.toNat = k
    · subst e
      rw [if_pos rfl, if_pos (by simpa using hk), blit_in _ _ _ _ _ v (Nat.le_refl _) (by simp)]
    · rw [if_neg e, elems_getElem?, if_pos hk, blit_out _ _ _ _ _ _ (by simp; omega)]
  · intro b k hbk
    exact blit_out _ _ _ _ _ _ (by simp; omega)

end Verif.Go
