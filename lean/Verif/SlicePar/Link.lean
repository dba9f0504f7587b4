import Verif.SlicePar.Spec
import Verif.SliceAll.Props
import Verif.SliceParts.Lemmas
/-!
# The programs do what the model of the methods does
-/
namespace Verif.SlicePar
open Verif.Go Verif.Slicex Verif.SliceAll

variable {T α β α' β' : Type}

/-- Running a program on its own. -/
def exec : Prog T α → Cells T → Cells T × Outcome α
  | .done o, m => (m, o)
  | .read a i k, m => exec (k (m a i)) m
  | .write a i v k, m => exec k (put m a i v)

theorem exec_bind (p : Prog T α) (f : α → Prog T β) : ∀ m, exec (p.bind f) m =
    match exec p m with
    | (m', .ret x) => exec (f x) m'
    | (m', .panic) => (m', .panic)
    | (m', .hang) => (m', .hang) := by
  induction p with
  | done o => intro m; cases o <;> rfl
  | read a i k ih => intro m; exact ih _ m
  | write a i v k ih => intro m; exact ih _

theorem bind_assoc' {γ : Type} (o : Outcome α) (f : α → Outcome β) (g : β → Outcome γ) : (o.bind f).bind g = o.bind fun x => (f x).bind g := by
  cases o <;> rfl

/-- A program run on `m` ends like `o`; `R` relates memory and result to what `o` returns. -/
def Lk (p : Prog T α) (m : Cells T) (R : Cells T → α → β → Prop) (o : Outcome β) : Prop :=
  match exec p m, o with
  | (m', .ret x), .ret y => R m' x y
  | (_, .panic), .panic => True
  | (_, .hang), .hang => True
  | _, _ => False

theorem Lk.bind {p : Prog T α} {m : Cells T} {R : Cells T → α → β → Prop} {o : Outcome β} {f : α → Prog T α'}
    {R' : Cells T → α' → β' → Prop} {g : β → Outcome β'} (h : Lk p m R o)
    (hf : ∀ m' x y, R m' x y → Lk (f x) m' R' (g y)) : Lk (p.bind f) m R' (o.bind g) := by
  unfold Lk at h ⊢
  rw [exec_bind]
  generalize exec p m = e at h
  obtain ⟨m', o'⟩ := e
  cases o' <;> cases o <;> simp only at h ⊢ <;> first | exact hf _ _ _ h | trivial

theorem Lk.mono {p : Prog T α} {m : Cells T} {R R' : Cells T → α → β → Prop} {o : Outcome β} (h : Lk p m R o)
    (hR : ∀ m' x y, R m' x y → R' m' x y) : Lk p m R' o := by
  unfold Lk at h ⊢
  generalize exec p m = e at h ⊢
  obtain ⟨m', o'⟩ := e
  cases o' <;> cases o <;> simp only at h ⊢ <;> first | exact hR _ _ _ h | trivial

theorem lk_done {m : Cells T} {R : Cells T → α → β → Prop} {x : α} {y : β} (h : R m x y) : Lk (.done (.ret x)) m R (.ret y) := h

theorem put_blit (h : Hp T) (a o : Nat) (v : T) : (h.blit a o [v]).mem = put h.mem a o v := by
  funext b i
  rw [blit_mem, put]
  by_cases e : b = a ∧ i = o
  · obtain ⟨rfl, rfl⟩ := e
    simp
  · rw [if_neg e]
    split
    · rename_i h2
      have : i ≠ o := fun e2 => e ⟨h2.1, e2⟩
      rw [List.getElem?_eq_none (by simp only [List.length_singleton]; omega)]; rfl
    · rfl

/-- The memory a model function returns. -/
def Same (b : Nat) (m : Cells T) (h : Hp T) : Prop := h = ⟨m, b⟩

theorem lk_index (s : Sl) (i : Int) (m : Cells T) (b : Nat) : Lk (indexP s i) m (fun m' x y => m' = m ∧ x = y) (index ⟨m, b⟩ s i) := by
  unfold indexP index
  split
  · exact ⟨rfl, rfl⟩
  · trivial

theorem lk_store (s : Sl) (i : Int) (v : T) (m : Cells T) (b : Nat) :
    Lk (storeP s i v) m (fun m' _ h' => Same b m' h') (store ⟨m, b⟩ s i v) := by
  unfold storeP store
  split
  · show Same b (put m _ _ v) _
    rw [← put_blit ⟨m, b⟩]; rfl
  · trivial

theorem lk_swap (s : Sl) (i j : Int) (m : Cells T) (b : Nat) : Lk (swapP s i j) m (fun m' _ h' => Same b m' h') (swap ⟨m, b⟩ s i j) := by
  refine (lk_index s j m b).bind ?_
  rintro m' x y ⟨rfl, rfl⟩
  refine (lk_index s i m' b).bind ?_
  rintro m'' x' y ⟨rfl, rfl⟩
  refine (lk_store s i x m'' b).bind ?_
  rintro m1 _ h' rfl
  exact lk_store s j x' m1 b

theorem lk_reverse (s : Sl) (b : Nat) : ∀ (k : Nat) (i j : Int) (m : Cells T),
    Lk (reverseP s k i j) m (fun m' _ h' => Same b m' h') (reverseLoop s k ⟨m, b⟩ i j)
  | 0, _, _, _ => trivial
  | k + 1, i, j, m => by
    unfold reverseP reverseLoop
    split
    · refine (lk_swap s i j m b).bind ?_
      rintro m1 _ h' rfl
      exact lk_reverse s b k _ _ m1
    · exact lk_done rfl

theorem lk_shuffle (s : Sl) (draw : Nat → Nat) (b : Nat) : ∀ (k : Nat) (m : Cells T),
    Lk (shuffleP s draw k) m (fun m' _ h' => Same b m' h') (shuffleLoop s draw k ⟨m, b⟩)
  | 0, _ => lk_done rfl
  | k + 1, m => by
    unfold shuffleP shuffleLoop
    split
    · exact lk_done rfl
    · refine (lk_swap s _ _ m b).bind ?_
      rintro m1 _ h' rfl
      exact lk_shuffle s draw b k m1

theorem lk_filter (f : T → Bool) (s : Sl) (b : Nat) : ∀ (r k n : Nat) (m : Cells T),
    Lk (filterP f s r k n) m (fun m' x y => Same b m' y.1 ∧ x = y.2) (filterLoop f s r k n ⟨m, b⟩)
  | 0, _, _, _ => lk_done ⟨rfl, rfl⟩
  | r + 1, k, n, m => by
    unfold filterP filterLoop
    show Lk (if f (m s.arr (s.off + k)) then _ else _) m _ _
    simp only
    split
    · refine (lk_store s n _ m b).bind ?_
      rintro m1 _ h' rfl
      exact lk_filter f s b r _ _ m1
    · exact lk_filter f s b r _ _ m

theorem exec_load (a : Nat) (m : Cells T) : ∀ (n o : Nat), exec (loadP a o n) m = (m, .ret ((List.range n).map fun k => m a (o + k)))
  | 0, _ => rfl
  | n + 1, o => by
    show exec ((loadP a (o + 1) n).bind _) m = _
    rw [exec_bind, exec_load a m n (o + 1)]
    simp only [exec, List.range_succ_eq_map, List.map_cons, List.map_map, Nat.add_zero]
    congr 3
    refine List.map_congr_left fun k _ => ?_
    simp only [Function.comp, Nat.succ_eq_add_one]
    congr 1
    omega

theorem exec_save (a : Nat) (b : Nat) : ∀ (vs : List T) (o : Nat) (m : Cells T), exec (saveP a o vs) m = (((⟨m, b⟩ : Hp T).blit a o vs).mem, .ret ())
  | [], o, m => by
    show (m, _) = _
    congr 1
    funext x i
    rw [blit_out _ _ _ _ _ _ (by simp only [List.length_nil]; omega)]
  | v :: vs, o, m => by
    show exec (saveP a (o + 1) vs) (put m a o v) = _
    rw [exec_save a b vs]
    congr 1
    funext x i
    rw [blit_mem, blit_mem]
    simp only [put]
    by_cases hx : x = a
    · subst hx
      by_cases h1 : i = o
      · subst h1; simp
      · by_cases h2 : o ≤ i
        · rw [if_pos ⟨rfl, by omega⟩, if_neg (by omega), if_pos ⟨rfl, h2⟩, show i - o = (i - (o + 1)) + 1 by omega, List.getElem?_cons_succ]
        · rw [if_neg (by omega), if_neg (by omega), if_neg (by omega)]
    · simp [hx]

theorem exec_elems (s : Sl) (m : Cells T) (b : Nat) : exec (elemsP s) m = (m, .ret (elems ⟨m, b⟩ s)) := exec_load _ _ _ _

/-- The list a search from element `k` on goes through. -/
def rest (m : Cells T) (s : Sl) (r k : Nat) : List T := (List.range r).map fun j => m s.arr (s.off + (k + j))

theorem rest_succ (m : Cells T) (s : Sl) (r k : Nat) : rest m s (r + 1) k = m s.arr (s.off + k) :: rest m s r (k + 1) := by
  unfold rest
  rw [List.range_succ_eq_map, List.map_cons, List.map_map]
  congr 2
  funext j
  simp only [Function.comp, Nat.succ_eq_add_one]
  congr 2; omega

theorem exec_find (f : T → Bool) (s : Sl) (m : Cells T) : ∀ (r k : Nat), ∃ o, exec (findP f s r k) m = (m, .ret o) ∧
    (indexLoop f (rest m s r k) k).1 = found o ∧ (containsLoop f (rest m s r k)).1 = o.isSome
  | 0, k => ⟨none, rfl, rfl, rfl⟩
  | r + 1, k => by
    rw [rest_succ]
    unfold findP indexLoop containsLoop
    simp only [exec]
    by_cases h : f (m s.arr (s.off + k))
    · rw [if_pos h, if_pos h, if_pos h]
      exact ⟨some k, rfl, rfl, rfl⟩
    · rw [if_neg h, if_neg h, if_neg h]
      obtain ⟨o, h1, h2, h3⟩ := exec_find f s m r (k + 1)
      refine ⟨o, h1, ?_, h3⟩
      rw [← h2]; rfl

variable [Inhabited T]

/-- The result of a whole call: same header and result, same memory in the arrays there were. -/
def Ends (b : Nat) (m : Cells T) (x : Sl × Res T) (y : (Hp T × Sl) × Res T) : Prop := x = (y.1.2, y.2) ∧ ∀ a i, a < b → m a i = y.1.1.mem a i

theorem lk_cut {s : Sl} {m : Cells T} {b : Nat} (o : s.Ok (⟨m, b⟩ : Hp T)) (i j : Int) (g1 g2 : Nat) :
    Lk (cutP s i j) m (fun m' x y => x = y.2 ∧ ∀ a i, a < b → m' a i = y.1.mem a i) (cut ⟨m, b⟩ g1 g2 s i j) := by
  have hlh := lo_le_hi i j s.len
  have hh := hi_le i j s.len
  have hle := o.le
  simp only [cut, splice, cutP, clamp2_eq]
  generalize hLO : lo i j s.len = L at *
  generalize hHI : hi i j s.len = H at *
  rw [reslice_ret (by omega) (by omega) (by omega), reslice_ret (by omega) (by omega) (by omega)]
  simp only [Outcome.bind_ret, Int.toNat_zero, Nat.add_zero, Nat.sub_zero, Int.toNat_natCast, Int.sub_zero]
  rw [show ((s.len : Int) - (H : Int)).toNat = s.len - H by omega]
  unfold Lk
  rw [exec_bind, exec_load]
  simp only
  rw [exec_bind, exec_save _ b]
  simp only [exec]
  generalize hvs : elems (⟨m, b⟩ : Hp T) ⟨s.arr, s.off + H, s.len - H, s.cap - H⟩ = vs
  have hvs' : ((List.range (s.len - H)).map fun k => m s.arr (s.off + H + k)) = vs := hvs
  rw [hvs']
  have hl : vs.length = s.len - H := by rw [← hvs]; simp
  have hout := fun x k (hb : x < b) => append_out (⟨m, b⟩ : Hp T) g1 Sl.nil vs x k hb (Or.inr (Or.inr (Or.inl (by simp [Sl.nil]))))
  have hel := append_elems (⟨m, b⟩ : Hp T) g1 Sl.nil vs
  generalize append (⟨m, b⟩ : Hp T) g1 Sl.nil vs = q at *
  obtain ⟨h1, x⟩ := q
  simp only at hout hel ⊢
  have hx : elems h1 x = vs := by rw [hel]; simp
  rw [hx]
  unfold append
  rw [if_pos (by simp only; omega)]
  refine ⟨rfl, fun a i ha => ?_⟩
  simp only
  rw [blit_mem, blit_mem, hout a i ha]

/-- **The link**: a call that adds nothing, run as a program, ends like the step of the whole-method-set model (C127). -/
theorem lk_prog (lim : Nat) {s : Sl} {m : Cells T} {b : Nat} (o : s.Ok (⟨m, b⟩ : Hp T)) (c : Choice) (op : Op T) (ht : Tame op) :
    Lk (prog c.draw s op) m (Ends b) (step lim c (⟨m, b⟩, s) op) := by
  cases op with
  | set i v =>
    simp only [prog, step, Slicex.set]
    split
    · exact lk_done ⟨rfl, fun _ _ _ => rfl⟩
    · refine (lk_store s _ v m b).bind ?_
      rintro m1 _ h' rfl
      exact lk_done ⟨rfl, fun _ _ _ => rfl⟩
  | get i =>
    simp only [prog, step, Slicex.get]
    split
    · exact lk_done ⟨rfl, fun _ _ _ => rfl⟩
    · refine (lk_index s _ m b).bind ?_
      rintro m1 x y ⟨rfl, rfl⟩
      exact lk_done ⟨rfl, fun _ _ _ => rfl⟩
  | slice i j =>
    simp only [prog, step]
    cases Slicex.slice s i j
    · exact ⟨rfl, fun _ _ _ => rfl⟩
    · trivial
    · trivial
  | cut i j =>
    simp only [prog, step, SliceAll.unit]
    refine (lk_cut o i j c.g1 c.g2).bind ?_
    rintro m1 x y ⟨rfl, h2⟩
    exact lk_done ⟨rfl, h2⟩
  | delete i =>
    simp only [prog, step, SliceAll.unit, Slicex.delete]
    refine (lk_cut o i _ c.g1 c.g2).bind ?_
    rintro m1 x y ⟨rfl, h2⟩
    exact lk_done ⟨rfl, h2⟩
  | pop =>
    simp only [prog, step, Slicex.pop]
    split
    · exact lk_done ⟨rfl, fun _ _ _ => rfl⟩
    · rw [bind_assoc']
      refine (lk_index s _ m b).bind ?_
      rintro m1 x y ⟨rfl, rfl⟩
      rw [bind_assoc']
      refine (lk_cut o _ _ c.g1 c.g2).bind ?_
      rintro m1 x y ⟨rfl, h2⟩
      exact lk_done ⟨rfl, h2⟩
  | shift =>
    simp only [prog, step, Slicex.shift]
    split
    · exact lk_done ⟨rfl, fun _ _ _ => rfl⟩
    · rw [bind_assoc']
      refine (lk_index s _ m b).bind ?_
      rintro m1 x y ⟨rfl, rfl⟩
      rw [bind_assoc']
      refine (lk_cut o _ _ c.g1 c.g2).bind ?_
      rintro m1 x y ⟨rfl, h2⟩
      exact lk_done ⟨rfl, h2⟩
  | deleteReplace i =>
    simp only [prog, step, SliceAll.unit, Slicex.deleteReplace]
    rw [bind_assoc']
    refine (lk_index s _ m b).bind ?_
    rintro m1 x y ⟨rfl, rfl⟩
    rw [bind_assoc']
    refine (lk_store s _ _ m1 b).bind ?_
    rintro m2 _ h' rfl
    rw [bind_assoc']
    cases reslice s 0 (s.len - 1)
    · exact ⟨rfl, fun _ _ _ => rfl⟩
    · trivial
    · trivial
  | reverse =>
    simp only [prog, step, Slicex.reverse]
    refine (lk_reverse s b _ _ _ m).bind ?_
    rintro m1 _ h' rfl
    exact lk_done ⟨rfl, fun _ _ _ => rfl⟩
  | shuffle =>
    simp only [prog, step, Slicex.shuffle]
    refine (lk_shuffle s c.draw b _ m).bind ?_
    rintro m1 _ h' rfl
    exact lk_done ⟨rfl, fun _ _ _ => rfl⟩
  | filter f =>
    simp only [prog, step, SliceAll.unit, Slicex.filter]
    rw [bind_assoc']
    refine (lk_filter f s b _ _ _ m).bind ?_
    rintro m1 n ⟨h', n'⟩ ⟨h1, h2⟩
    simp only at h1 h2
    subst h1; subst h2
    simp only
    cases reslice s 0 n
    · exact ⟨rfl, fun _ _ _ => rfl⟩
    · trivial
    · trivial
  | clear =>
    simp only [prog, step]
    cases Slicex.clear s
    · exact ⟨rfl, fun _ _ _ => rfl⟩
    · trivial
    · trivial
  | copy =>
    simp only [prog, step]
    unfold Lk
    rw [exec_bind, exec_elems s m b]
    simp only [exec, Slicex.copy]
    refine ⟨?_, fun a i ha => ?_⟩
    · rw [append_elems]; rfl
    · simp only
      rw [append_out _ _ _ _ _ _ ha (by simp only; omega)]
  | join fmt sep =>
    simp only [prog, step]
    unfold Lk
    rw [exec_bind, exec_elems s m b]
    exact ⟨rfl, fun _ _ _ => rfl⟩
  | indexOf f =>
    simp only [prog, step]
    unfold Lk
    rw [exec_bind]
    obtain ⟨o, h1, h2, _⟩ := exec_find f s m s.len 0
    rw [h1]
    refine ⟨?_, fun _ _ _ => rfl⟩
    rw [Slicex.indexOf, show elems (⟨m, b⟩ : Hp T) s = rest m s s.len 0 by simp [elems, rest]]
    simp only
    rw [show ((0 : Int)) = ((0 : Nat) : Int) from rfl, h2]
  | contains f =>
    simp only [prog, step]
    unfold Lk
    rw [exec_bind]
    obtain ⟨o, h1, _, h2⟩ := exec_find f s m s.len 0
    rw [h1]
    refine ⟨?_, fun _ _ _ => rfl⟩
    rw [Slicex.contains, show elems (⟨m, b⟩ : Hp T) s = rest m s s.len 0 by simp [elems, rest]]
    simp only
    rw [h2]
  | each =>
    simp only [prog, step]
    unfold Lk
    rw [exec_bind, exec_elems s m b]
    refine ⟨?_, fun _ _ _ => rfl⟩
    rw [(C25_each _ s).1]
  | forEach =>
    simp only [prog, step]
    unfold Lk
    rw [exec_bind, exec_elems s m b]
    refine ⟨?_, fun _ _ _ => rfl⟩
    rw [(C25_each _ s).2.1]
  | len => exact ⟨rfl, fun _ _ _ => rfl⟩
  | _ => exact ht.elim

end Verif.SlicePar
