import Verif.CopyVal.Spec
/-!
# What a call leaves alone
-/
namespace Verif.CopyVal
open Verif.Go Verif.SliceC

variable {T : Type} [Inhabited T]

@[simp] theorem upd_same {β : Type} (f : Nat → β) (i : Nat) (b : β) : upd f i b i = b := if_pos rfl
theorem upd_ne {β : Type} (f : Nat → β) {i k : Nat} (b : β) (h : k ≠ i) : upd f i b k = f k := if_neg h

/-- The array is the old one or a new one; old memory changes only from index `p` of the array on. -/
structure Frame (x x' : St T) (p : Option Nat) : Prop where
  brk : x.h.brk ≤ x'.h.brk
  off : x.s.off = 0 → x'.s.off = 0
  arr : (x'.s.arr = x.s.arr ∧ x'.s.cap = x.s.cap) ∨ x.h.brk ≤ x'.s.arr
  mem : ∀ b k, b < x.h.brk → (b ≠ x.s.arr ∨ x.s.cap = 0 ∨ ∀ q, p = some q → k < x.s.off + q) → x'.h.mem b k = x.h.mem b k

theorem Frame.refl (x : St T) : Frame x x none :=
  ⟨Nat.le_refl _, id, .inl ⟨rfl, rfl⟩, fun _ _ _ _ => rfl⟩

theorem append_hdr (h : Hp T) (g : Nat) (s : Sl) (vs : List T) (hs : s.off = 0) : (append h g s vs).2.off = 0 ∧
    (((append h g s vs).2.arr = s.arr ∧ (append h g s vs).2.cap = s.cap ∧ s.len + vs.length ≤ s.cap) ∨ (append h g s vs).2.arr = h.brk) := by
  unfold append
  split
  · exact ⟨hs, .inl ⟨rfl, rfl, by assumption⟩⟩
  · exact ⟨rfl, .inr rfl⟩

theorem append_len (h : Hp T) (g : Nat) (s : Sl) (vs : List T) : (append h g s vs).2.len = s.len + vs.length := by
  have := congrArg List.length (append_elems h g s vs)
  simpa using this

theorem append_frame {x : St T} (hx : x.s.off = 0) (ok : x.s.Ok x.h) (g : Nat) (v : T) :
    Frame x ⟨(append x.h g x.s [v]).1, (append x.h g x.s [v]).2⟩ (some x.s.len) := by
  obtain ⟨h1, h2⟩ := append_hdr x.h g x.s [v] hx
  refine ⟨append_brk _ _ _ _, fun _ => h1, ?_, ?_⟩
  · rcases h2 with ⟨a, b, _⟩ | a
    · exact .inl ⟨a, b⟩
    · exact .inr (Nat.le_of_eq a.symm)
  · intro b k hb hor
    have := ok.le
    apply append_out _ _ _ _ _ _ hb
    rcases hor with h | h | h
    · exact .inl h
    · rcases Nat.lt_or_ge k (x.s.off + x.s.len) with h' | h'
      · exact .inr (.inl h')
      · exact .inr (.inr (.inl (by omega)))
    · exact .inr (.inl (h _ rfl))

theorem reslice_some {s s' : Sl} {lo hi : Int} (h : reslice s lo hi = .ret s') : 0 ≤ lo ∧ lo ≤ hi ∧ hi ≤ s.cap ∧
    s' = ⟨s.arr, s.off + lo.toNat, (hi - lo).toNat, s.cap - lo.toNat⟩ := by
  unfold reslice at h
  split at h
  · rename_i hc
    injection h with h
    exact ⟨hc.1, hc.2.1, hc.2.2, h.symm⟩
  · cases h

theorem stack_frame {x : St T} (hx : x.s.off = 0) (ok : x.s.Ok x.h) (o : SOp T) :
    Frame x (stackStep x o).1 (match o with | .push _ _ => some x.s.len | _ => none) := by
  cases o with
  | push v g => exact append_frame hx ok g v
  | pop =>
    show Frame x (pop x).1 none
    unfold pop
    split
    · exact .refl x
    · split
      · rename_i v s hv hs
        obtain ⟨_, _, _, e⟩ := reslice_some hs
        subst e
        refine ⟨Nat.le_refl _, fun h => ?_, .inl ⟨rfl, ?_⟩, fun _ _ _ _ => rfl⟩
        · show x.s.off + (0 : Int).toNat = 0
          rw [h]; rfl
        · show x.s.cap - (0 : Int).toNat = x.s.cap
          rfl
      · exact .refl x
  | peek =>
    show Frame x (peek x).1 none
    unfold peek
    split
    · exact .refl x
    · split <;> exact .refl x
  | isEmpty => exact .refl x
  | len => exact .refl x

theorem wrap_eq {i : Int} (hi : InInt64 i) (h : 0 ≤ wrap64 (i + 1)) (h0 : 0 ≤ i) : wrap64 (i + 1) = i + 1 := by
  unfold InInt64 at hi
  unfold wrap64 at h ⊢
  omega

theorem insert_frame {x : St T} {l : List T} (hx : x.s.off = 0) (r : Rep x l) (i : Int) (v : T) (g : Nat) (hi : InInt64 i) :
    Frame x (linsert x i v g).1 (writesAt l (.list (.insert i v g))) := by
  have hlen := r.len
  have fa := append_frame hx r.ok g v
  have hl' : (append x.h g x.s [v]).2.len = x.s.len + 1 := append_len x.h g x.s [v]
  have ho := (append_hdr x.h g x.s [v] hx).1
  have hh := (append_hdr x.h g x.s [v] hx).2
  have hb := append_brk x.h g x.s [v]
  have hnew : x.s.cap = 0 → (append x.h g x.s [v]).2.arr = x.h.brk := by
    intro hc
    rcases hh with ⟨_, _, h⟩ | h
    · simp at h; omega
    · exact h
  unfold linsert
  generalize append x.h g x.s [v] = q at fa hl' ho hh hb hnew
  obtain ⟨h, s⟩ := q
  simp only at fa hl' ho hh hb hnew ⊢
  have wide : writesAt l (.list (.insert i v g)) = some x.s.len ∨ (∃ k, writesAt l (.list (.insert i v g)) = some k ∧ k ≤ x.s.len) := by
    simp only [writesAt]
    split
    · right; exact ⟨_, rfl, by omega⟩
    · left; rw [hlen]
  have weak : ∀ h', h'.brk = h.brk → (∀ b k, b < x.h.brk → (b ≠ x.s.arr ∨ x.s.cap = 0 ∨ ∀ q, writesAt l (.list (.insert i v g)) = some q → k < x.s.off + q) →
      h'.mem b k = h.mem b k) → Frame x ⟨h', s⟩ (writesAt l (.list (.insert i v g))) := by
    intro h' hbrk hm
    refine ⟨by rw [hbrk]; exact fa.brk, fa.off, fa.arr, ?_⟩
    intro b k hbk hor
    rw [hm b k hbk hor]
    apply fa.mem b k hbk
    rcases hor with h1 | h1 | h1
    · exact .inl h1
    · exact .inr (.inl h1)
    · refine .inr (.inr (fun q hq => ?_))
      cases hq
      rcases wide with h2 | ⟨k', h2, h3⟩
      · exact h1 _ h2
      · have := h1 _ h2; omega
  split
  · rename_i dst src hd hs
    obtain ⟨d1, d2, d3, d4⟩ := reslice_some hd
    obtain ⟨s1, s2, s3, s4⟩ := reslice_some hs
    have hw := wrap_eq hi d1 s1
    have hin : 0 ≤ i ∧ i ≤ l.length := by omega
    have hp : writesAt l (.list (.insert i v g)) = some i.toNat := by simp only [writesAt]; rw [if_pos hin]
    have harr : ∀ b, b < x.h.brk → b = s.arr → b = x.s.arr ∧ x.s.cap ≠ 0 := by
      intro b hb' e
      rcases hh with ⟨h1, h2, h3⟩ | h1
      · exact ⟨by rw [e, h1], by simp at h3; omega⟩
      · omega
    have hcopy : ∀ b k, b < x.h.brk → (b ≠ x.s.arr ∨ x.s.cap = 0 ∨ ∀ q, writesAt l (.list (.insert i v g)) = some q → k < x.s.off + q) →
        (copySl h dst src).mem b k = h.mem b k := by
      intro b k hb' hor
      unfold copySl
      apply blit_out
      rw [d4]
      simp only
      by_cases e : b = s.arr
      · obtain ⟨e1, e2⟩ := harr b hb' e
        rcases hor with h1 | h1 | h1
        · exact absurd e1 h1
        · exact absurd h1 e2
        · have := h1 _ hp
          right; left; omega
      · exact .inl e
    split
    · rename_i h' hst
      have hst' := hst
      unfold store at hst'
      split at hst'
      · injection hst' with e
        subst e
        apply weak
        · rfl
        · intro b k hb' hor
          rw [blit_out, hcopy b k hb' hor]
          by_cases e : b = s.arr
          · obtain ⟨e1, e2⟩ := harr b hb' e
            rcases hor with h1 | h1 | h1
            · exact absurd e1 h1
            · exact absurd h1 e2
            · have := h1 _ hp
              right; left; omega
          · exact .inl e
      · cases hst'
    · exact weak _ rfl hcopy
  · exact weak h rfl (fun _ _ _ _ => rfl)

theorem remove_frame {x : St T} {l : List T} (hx : x.s.off = 0) (r : Rep x l) (i : Int) (hi : InInt64 i) :
    Frame x (lremove x i).1 (writesAt l (.list (.remove i))) := by
  have hlen := r.len
  have hle := r.ok.le
  have base : Frame x x (writesAt l (.list (.remove i))) := ⟨Nat.le_refl _, id, .inl ⟨rfl, rfl⟩, fun _ _ _ _ => rfl⟩
  unfold lremove
  split
  · exact base
  · rename_i hr
    split
    · rename_i v a b hv ha hb
      obtain ⟨a1, a2, a3, a4⟩ := reslice_some ha
      obtain ⟨b1, b2, b3, b4⟩ := reslice_some hb
      have hw := wrap_eq hi b1 a2
      have hal : a.len = i.toNat := by rw [a4]; simp
      have hac : a.cap = x.s.cap := by rw [a4]; simp
      have haa : a.arr = x.s.arr := by rw [a4]
      have hao : a.off = 0 := by rw [a4]; simp [hx]
      have hbl : b.len = x.s.len - (i.toNat + 1) := by rw [b4]; simp only; omega
      obtain ⟨h1, h2⟩ := append_hdr x.h 0 a (elems x.h b) hao
      have hfit : a.len + (elems x.h b).length ≤ a.cap := by simp [hal, hac, hbl]; omega
      refine ⟨append_brk _ _ _ _, fun _ => h1, ?_, ?_⟩
      · rcases h2 with ⟨c, d, _⟩ | c
        · exact .inl ⟨c.trans haa, d.trans hac⟩
        · exact .inr (Nat.le_of_eq c.symm)
      · intro c k hc hor
        apply append_out _ _ _ _ _ _ hc
        rw [haa, hao, hal, hac, elems_length, hbl]
        by_cases hlast : i + 1 < l.length
        · have hp : writesAt l (.list (.remove i)) = some i.toNat := by
            simp only [writesAt]; rw [if_pos ⟨by omega, hlast⟩]
          rcases hor with h | h | h
          · exact .inl h
          · omega
          · have := h _ hp
            right; left; omega
        · omega
    · exact base

/-- What a call does to the memory of others. -/
theorem meth_frame {x : St T} {l : List T} (hx : x.s.off = 0) (r : Rep x l) (m : Meth T) (hm : ∀ o, m = .list o → OpOk o) :
    Frame x (meth x m).1 (writesAt l m) := by
  cases m with
  | stack o =>
    have := stack_frame hx r.ok o
    cases o with
    | push v g => rw [r.len] at this; exact this
    | _ => exact this
  | list o =>
    have ho := hm o rfl
    cases o with
    | append v g =>
      have := append_frame hx r.ok g v
      rw [r.len] at this
      exact this
    | insert i v g => exact insert_frame hx r i v g ho
    | remove i => exact remove_frame hx r i ho
    | «at» i =>
      show Frame x (lat x i).1 none
      unfold lat
      split
      · exact .refl x
      · split <;> exact .refl x
    | iterate f => exact .refl x
    | len => exact .refl x

omit [Inhabited T] in
theorem list_after {l l' : List T} {o : LOp T} {r : Res T} (h : ListSpec l o l' r) : l' = after l (.list o) := by
  cases o with
  | append v g => exact h.1
  | insert i v g =>
    simp only [ListSpec] at h
    simp only [after]
    split at h <;> rename_i hc
    · rw [if_pos hc]; exact h.1
    · rw [if_neg hc]; exact h.1
  | remove i => exact h.1
  | «at» i => exact h.1
  | iterate f => exact h.1
  | len => exact h.1

/-- What a call on a value gives. -/
theorem meth_rep {x : St T} {l : List T} (r : Rep x l) (m : Meth T) (hm : ∀ o, m = .list o → OpOk o) (hs : (l.length : Int) < 2 ^ 63 - 1) :
    Rep (meth x m).1 (after l m) ∧ Gives l m (meth x m).2 := by
  cases m with
  | stack o =>
    obtain ⟨h1, h2⟩ := stackStep_rep (l := l.reverse) (by rw [List.reverse_reverse]; exact r) o
    exact ⟨h2, h1⟩
  | list o =>
    obtain ⟨l', h1, h2⟩ := listStep_rep r o (hm o rfl) hs
    have := list_after h2
    subst this
    exact ⟨h1, h2⟩

theorem after_length (l : List T) (m : Meth T) : (after l m).length ≤ l.length + 1 := by
  cases m with
  | stack o =>
    have : ∀ q : List T, (stackSpec q o).1.length ≤ q.length + 1 := by
      intro q
      cases o with
      | push v g => simp [stackSpec]
      | pop => cases q <;> simp [stackSpec]; omega
      | _ => simp [stackSpec]
    have h := this l.reverse
    simpa [after] using h
  | list o =>
    cases o with
    | append v g => simp [after]
    | insert i v g => simp only [after]; split <;> simp <;> omega
    | remove i =>
      simp only [after]; split
      · rw [List.length_eraseIdx]; split <;> omega
      · omega
    | _ => simp [after]

/-- The variables hold the values, and only copies share an array. -/
structure Inv (w : World T) (val : Nat → List T) (fam : Nat → Nat) : Prop where
  rep : ∀ i, Rep ⟨w.h, w.v i⟩ (val i)
  off : ∀ i, (w.v i).off = 0
  apart : ∀ i j, fam i ≠ fam j → (w.v i).cap = 0 ∨ (w.v j).cap = 0 ∨ (w.v i).arr ≠ (w.v j).arr

theorem inv_call {w : World T} {val : Nat → List T} {fam : Nat → Nat} (hi : Inv w val fam) (i : Nat) (m : Meth T) (hm : ∀ o, m = .list o → OpOk o)
    (hs : ((val i).length : Int) < 2 ^ 63 - 1) (hc : ∀ p, writesAt (val i) m = some p → ∀ j, j ≠ i → fam j = fam i → (val j).length ≤ p) :
    Inv (step w (.call i m)).1 (upd val i (after (val i) m)) fam ∧ Gives (val i) m (step w (.call i m)).2 := by
  have hr := hi.rep i
  obtain ⟨h1, h2⟩ := meth_rep hr m hm hs
  have hf := meth_frame (hi.off i) hr m hm
  refine ⟨⟨?_, ?_, ?_⟩, h2⟩
  · intro j
    show Rep ⟨(meth ⟨w.h, w.v i⟩ m).1.h, upd w.v i (meth ⟨w.h, w.v i⟩ m).1.s j⟩ _
    by_cases e : j = i
    · subst e; rw [upd_same, upd_same]; exact h1
    · rw [upd_ne _ _ e, upd_ne _ _ e]
      have hj := hi.rep j
      refine ⟨hj.ok.mono hf.brk, ?_⟩
      rw [← hj.data]
      apply elems_congr
      intro k hk
      have hk' : k < (w.v j).len := hk
      have hle : (w.v j).len ≤ (w.v j).cap := hj.ok.le
      have hcap : 0 < (w.v j).cap := by omega
      apply hf.mem _ _ (hj.ok.lt hcap)
      by_cases hfam : fam j = fam i
      · right; right
        intro q hq
        have h3 := hc q hq j e hfam
        have h4 := hj.len
        have h5 := hi.off j
        have h6 := hi.off i
        show (w.v j).off + k < (w.v i).off + q
        replace h4 : (w.v j).len = (val j).length := h4
        omega
      · rcases hi.apart j i hfam with h | h | h
        · omega
        · exact .inr (.inl h)
        · exact .inl h
  · intro j
    show (upd w.v i (meth ⟨w.h, w.v i⟩ m).1.s j).off = 0
    by_cases e : j = i
    · subst e; rw [upd_same]; exact hf.off (hi.off j)
    · rw [upd_ne _ _ e]; exact hi.off j
  · have one : ∀ j, j ≠ i → fam i ≠ fam j → (meth ⟨w.h, w.v i⟩ m).1.s.cap = 0 ∨ (w.v j).cap = 0 ∨
        (meth ⟨w.h, w.v i⟩ m).1.s.arr ≠ (w.v j).arr := by
      intro j e hne
      rcases hf.arr with ⟨a, b⟩ | a
      · rw [a, b]; exact hi.apart i j hne
      · by_cases hcap : (w.v j).cap = 0
        · exact .inr (.inl hcap)
        · right; right
          have := (hi.rep j).ok.lt (by show 0 < (w.v j).cap; omega)
          replace this : (w.v j).arr < w.h.brk := this
          replace a : w.h.brk ≤ _ := a
          omega
    intro j k hne
    show (upd w.v i (meth ⟨w.h, w.v i⟩ m).1.s j).cap = 0 ∨ (upd w.v i (meth ⟨w.h, w.v i⟩ m).1.s k).cap = 0 ∨
      (upd w.v i (meth ⟨w.h, w.v i⟩ m).1.s j).arr ≠ (upd w.v i (meth ⟨w.h, w.v i⟩ m).1.s k).arr
    by_cases e : j = i
    · subst e
      by_cases e' : k = j
      · subst e'; exact absurd rfl hne
      · rw [upd_same, upd_ne _ _ e']; exact one k e' hne
    · by_cases e' : k = i
      · subst e'
        rw [upd_same, upd_ne _ _ e]
        rcases one j e (Ne.symm hne) with h | h | h
        · exact .inr (.inl h)
        · exact .inl h
        · exact .inr (.inr (Ne.symm h))
      · rw [upd_ne _ _ e, upd_ne _ _ e']; exact hi.apart j k hne

theorem inv_copy {w : World T} {val : Nat → List T} {fam : Nat → Nat} (hi : Inv w val fam) (i j : Nat) :
    Inv (step w (.copy i j)).1 (upd val j (val i)) (upd fam j (fam i)) := by
  have pick : ∀ k, (upd w.v j (w.v i) k = w.v (if k = j then i else k)) ∧ (upd val j (val i) k = val (if k = j then i else k)) ∧
      (upd fam j (fam i) k = fam (if k = j then i else k)) := by
    intro k; unfold upd; by_cases e : k = j <;> simp [e]
  refine ⟨fun k => ?_, fun k => ?_, fun k k' hne => ?_⟩
  · show Rep ⟨w.h, upd w.v j (w.v i) k⟩ _
    rw [(pick k).1, (pick k).2.1]; exact hi.rep _
  · show (upd w.v j (w.v i) k).off = 0
    rw [(pick k).1]; exact hi.off _
  · show (upd w.v j (w.v i) k).cap = 0 ∨ (upd w.v j (w.v i) k').cap = 0 ∨ (upd w.v j (w.v i) k).arr ≠ (upd w.v j (w.v i) k').arr
    rw [(pick k).1, (pick k').1]
    rw [(pick k).2.2, (pick k').2.2] at hne
    exact hi.apart _ _ hne

theorem run_values {w : World T} {val : Nat → List T} {fam : Nat → Nat} (hi : Inv w val fam) (cs : List (Cmd T)) (ho : ∀ c ∈ cs, CmdOk c)
    (n : Nat) (hn : ∀ i, (val i).length ≤ n) (hs : (n + cs.length : Int) < 2 ^ 63 - 1) (hc : Careful val fam cs) : Values val cs (run w cs) := by
  induction cs generalizing w val fam n with
  | nil => exact .nil
  | cons c cs ih =>
    simp only [List.length_cons] at hs
    have ho' : ∀ c ∈ cs, CmdOk c := fun c h => ho c (List.mem_cons_of_mem _ h)
    cases c with
    | copy i j =>
      refine .copy (ih (inv_copy hi i j) ho' (n + 1) (fun k => ?_) (by omega) hc)
      unfold upd
      split
      · have := hn i; omega
      · have := hn k; omega
    | call i m =>
      have hm : ∀ o, m = .list o → OpOk o := by
        intro o e
        have := ho (.call i m) List.mem_cons_self
        rw [e] at this; exact this
      have hlen := hn i
      obtain ⟨h1, h2⟩ := inv_call hi i m hm (by omega) hc.1
      refine .call h2 (ih h1 ho' (n + 1) (fun k => ?_) (by omega) hc.2)
      unfold upd
      split
      · have := after_length (val i) m; omega
      · have := hn k; omega

theorem start_inv (h : Hp T) : Inv (start h) (fun _ => []) id :=
  ⟨fun _ => ⟨Sl.nil_ok h, rfl⟩, fun _ => rfl, fun _ _ _ => .inl rfl⟩

end Verif.CopyVal
