import Verif.Conc.Track
import Verif.RingPair.Model
import Verif.RingPair.Spec
import Mathlib.Data.List.Perm.Subperm
/-!
# What holds between the steps of the two goroutines
-/
namespace Verif.RingPair
open Verif.Conc Verif.Go
open Verif.Ring (Op Res at?)

variable {T : Type}

/-- The ring holds `l` and has accepted `a` elements. -/
structure Rep (n a : Nat) (r : Ring.Ring T) (l : List T) : Prop where
  small : (n : Int) < 2 ^ 63 - 1
  cap : r.cap = n + 1
  dlen : r.data.length = n
  tail : r.tail = a
  acc_le : a ≤ n
  head : r.head + l.length = a
  head0 : 0 ≤ r.head
  data : ∀ i, i < l.length → r.data[r.head.toNat + i]? = l[i]?

inductive PRel (n a : Nat) (d : List T) : PPc T → Stage (Op T) (Res T) → Prop
  | idle : PRel n a d .idle .none
  | start {id c} : Puts c → PRel n a d (.start id c) (.owes id c)
  | sawPut {id v} {h : Int} : a < n → 0 ≤ h → h ≤ a → PRel n a d (.saw id (.enqueue v) h) (.owes id (.enqueue v))
  | sawEnd {id v} {h : Int} : a = n → PRel n a d (.saw id (.enqueue v) h) (.done id (.enqueue v) (if h = 0 then .bool false else .panic))
  | sawFull {id} {h : Int} : 0 ≤ h → h ≤ a → PRel n a d (.saw id .isFull h) (.done id .isFull (.bool (decide (a = n ∧ h = 0))))
  | free {id v} : a < n → PRel n a d (.free id v) (.owes id (.enqueue v))
  | freeEnd {id v} : a = n → PRel n a d (.free id v) (.done id (.enqueue v) .panic)
  | stored {id v} : a < n → d[a]? = some v → PRel n a d (.stored id v) (.owes id (.enqueue v))
  | out {id c r} : PRel n a d (.out id c r) (.done id c r)

inductive CRel (h : Int) (l : List T) : CPc T → Stage (Op T) (Res T) → Prop
  | idle : CRel h l .idle .none
  | start {id c} : Takes c → CRel h l (.start id c) (.owes id c)
  | saw {id c} : Takes c → CRel h l (.saw id c h) (.owes id c)
  | some {id c} : c = .dequeue ∨ c = .peek → l ≠ [] → CRel h l (.some id c) (.owes id c)
  | got {id v l'} : l = v :: l' → CRel h l (.got id v) (.owes id .dequeue)
  | out {id c r} : CRel h l (.out id c r) (.done id c r)

def Inv (n : Nat) (s : St T) : Prop :=
  ∃ S a l stage, Track (worn T n) s.hist S (a, l) s.next stage ∧ Rep n a s.r l ∧ PRel n a s.r.data s.prod (stage true) ∧
    CRel s.r.head l s.cons (stage false)

theorem succ_tail {n a : Nat} {r : Ring.Ring T} {l : List T} (p : Rep n a r l) :
    succ r r.tail = if a = n then 0 else (a : Int) + 1 := by
  have h1 := p.acc_le
  rw [succ, p.cap, p.tail]
  by_cases e : a = n
  · rw [if_pos e, e, Ring.next_last p.small]
  · rw [if_neg e, Ring.next_small p.small (by omega) (by omega)]

theorem full_iff {n a : Nat} {r : Ring.Ring T} {l : List T} (p : Rep n a r l) {h : Int} (h1 : h ≤ a) :
    h = succ r r.tail ↔ a = n ∧ h = 0 := by
  rw [succ_tail p]
  by_cases e : a = n
  · simp [e]
  · simp only [e, if_false, false_and, iff_false]; omega

theorem at_front {n a : Nat} {r : Ring.Ring T} {x : T} {l : List T} (p : Rep n a r (x :: l)) : at? r.data r.head = some x := by
  have := p.data 0 (by simp)
  simp only [at?, p.head0, if_true]
  simpa using this

theorem inv_pstep {n : Nat} {s s' : St T} (i : Inv n s) (st : PStep s s') : Inv n s' := by
  obtain ⟨S, a, l, stage, k, p, hp, hc⟩ := i
  have hne : ∀ x, Function.update stage true x false = stage false := fun x => Function.update_of_ne (by simp) _ _
  cases st with
  | @invoke c h1 h2 =>
    rw [h1] at hp
    have hs : stage true = .none := by
      generalize stage true = x at hp
      cases hp; rfl
    exact ⟨S, a, l, _, k.invoke hs c, p, by rw [Function.update_self]; exact .start h2, by rw [hne]; exact hc⟩
  | @head id c h1 =>
    rw [h1] at hp
    have hs : stage true = .owes id c ∧ Puts c := by
      generalize stage true = x at hp
      cases hp with
      | start h => exact ⟨rfl, h⟩
    obtain ⟨hs, hput⟩ := hs
    have e1 := p.head; have e2 := p.head0; have e3 := p.acc_le
    cases c with
    | enqueue v =>
      by_cases ea : a < n
      · exact ⟨S, a, l, stage, k, p, by rw [hs]; exact .sawPut ea p.head0 (by omega), hc⟩
      · have ea : a = n := by omega
        have hstep : (worn T n).step (a, l) (.enqueue v) (if s.r.head = 0 then .bool false else .panic) (a, l) := by
          by_cases hz : s.r.head = 0
          · rw [if_pos hz]; exact .refuse (by omega)
          · rw [if_neg hz, ea]; exact .panic (by omega)
        exact ⟨_, a, l, _, k.effect hs hstep, p, by rw [Function.update_self]; exact .sawEnd ea, by rw [hne]; exact hc⟩
    | isFull =>
      have hstep : (worn T n).step (a, l) .isFull (.bool (decide (a = n ∧ s.r.head = 0))) (a, l) := by
        have : decide (a = n ∧ s.r.head = 0) = decide (l.length = n) := by
          rw [decide_eq_decide]; omega
        rw [this]
        exact .other (by simp) .full
      exact ⟨_, a, l, _, k.effect hs hstep, p, by rw [Function.update_self]; exact .sawFull e2 (by omega), by rw [hne]; exact hc⟩
    | dequeue => exact hput.elim
    | head => exact hput.elim
    | cap => exact hput.elim
    | isEmpty => exact hput.elim
    | peek => exact hput.elim
  | @full id c h h1 h2 =>
    rw [h1] at hp
    refine ⟨S, a, l, stage, k, p, ?_, hc⟩
    generalize stage true = x at hp
    cases hp with
    | sawPut ha hh0 hh => have := (full_iff p hh).1 h2; omega
    | sawEnd ha =>
      rw [succ_tail p, if_pos ha] at h2
      rw [if_pos h2]
      exact .out
    | sawFull hh0 hh => rw [decide_eq_true ((full_iff p hh).1 h2)]; exact .out
  | @notFull id h h1 h2 =>
    rw [h1] at hp
    refine ⟨S, a, l, stage, k, p, ?_, hc⟩
    generalize stage true = x at hp
    cases hp with
    | sawFull hh0 hh => rw [decide_eq_false (fun e => h2 ((full_iff p hh).2 e))]; exact .out
  | @free id v h h1 h2 =>
    rw [h1] at hp
    refine ⟨S, a, l, stage, k, p, ?_, hc⟩
    generalize stage true = x at hp
    cases hp with
    | sawPut ha hh0 hh => exact .free ha
    | sawEnd ha =>
      rw [succ_tail p, if_pos ha] at h2
      rw [if_neg h2]
      exact .freeEnd ha
  | @store id v x h1 h2 =>
    rw [h1] at hp
    have e1 := p.head; have e2 := p.head0; have e3 := p.acc_le; have e4 := p.dlen; have e5 := p.tail
    have ha : a < n := by
      simp only [at?, e5] at h2
      rw [if_pos (by omega), Int.toNat_natCast] at h2
      have := (List.getElem?_eq_some_iff.1 h2).1
      omega
    have hs : stage true = .owes id (.enqueue v) := by
      generalize stage true = x at hp
      cases hp with
      | free _ => rfl
      | freeEnd h => omega
    refine ⟨S, a, l, stage, k, ⟨p.small, p.cap, by simp [e4], e5, e3, e1, e2, ?_⟩, ?_, hc⟩
    · intro i hi
      simp only [e5, Int.toNat_natCast]
      rw [List.getElem?_set_ne (by omega)]
      exact p.data i hi
    · rw [hs]
      refine .stored ha ?_
      simp only [e5, Int.toNat_natCast]
      rw [List.getElem?_set_self (by omega)]
  | @panic id v h1 h2 =>
    rw [h1] at hp
    refine ⟨S, a, l, stage, k, p, ?_, hc⟩
    generalize stage true = x at hp
    cases hp with
    | free ha =>
      simp only [at?, p.tail] at h2
      rw [if_pos (by omega), Int.toNat_natCast, List.getElem?_eq_none_iff, p.dlen] at h2
      omega
    | freeEnd ha => exact .out
  | @tail id v h1 =>
    rw [h1] at hp
    have e1 := p.head; have e2 := p.head0; have e3 := p.acc_le; have e4 := p.dlen; have e5 := p.tail
    have hs : stage true = .owes id (.enqueue v) ∧ a < n ∧ s.r.data[a]? = some v := by
      generalize stage true = x at hp
      cases hp with
      | stored h h' => exact ⟨rfl, h, h'⟩
    obtain ⟨hs, ha, hd⟩ := hs
    have hstep : (worn T n).step (a, l) (.enqueue v) (.bool true) (a + 1, l ++ [v]) := .put ha
    refine ⟨_, a + 1, l ++ [v], _, k.effect hs hstep, ⟨p.small, p.cap, e4, ?_, by omega, ?_, e2, ?_⟩, ?_, ?_⟩
    · simp only
      rw [succ_tail p, if_neg (by omega)]; simp
    · simp; omega
    · intro i hi
      simp only [List.length_append, List.length_singleton] at hi
      by_cases hil : i < l.length
      · rw [List.getElem?_append_left hil]; exact p.data i hil
      · have : i = l.length := by omega
        subst this
        simp only [List.getElem?_concat_length]
        rw [← hd]
        congr 1
        omega
    · rw [Function.update_self]; exact .out
    · rw [hne]
      generalize stage false = x at hc
      simp only
      cases hc' : s.cons <;> rw [hc'] at hc <;> cases hc
      · exact .idle
      · exact .start ‹_›
      · exact .saw ‹_›
      · exact .some ‹_› (by simp)
      · rename_i e; exact .got (by rw [e]; rfl)
      · exact .out
  | @ret id c r h1 =>
    rw [h1] at hp
    have hs : stage true = .done id c r := by
      generalize stage true = x at hp
      cases hp; rfl
    exact ⟨S, a, l, _, k.ret hs, p, by rw [Function.update_self]; exact .idle, by rw [hne]; exact hc⟩

theorem inv_cstep {n : Nat} {s s' : St T} (i : Inv n s) (st : CStep s s') : Inv n s' := by
  obtain ⟨S, a, l, stage, k, p, hp, hc⟩ := i
  have hne : ∀ x, Function.update stage false x true = stage true := fun x => Function.update_of_ne (by simp) _ _
  have e1 := p.head; have e2 := p.head0; have e3 := p.acc_le; have e4 := p.dlen; have e5 := p.tail
  cases st with
  | @invoke c h1 h2 =>
    rw [h1] at hc
    have hs : stage false = .none := by
      generalize stage false = x at hc
      cases hc; rfl
    exact ⟨S, a, l, _, k.invoke hs c, p, by rw [hne]; exact hp, by rw [Function.update_self]; exact .start h2⟩
  | @head id c h1 =>
    rw [h1] at hc
    refine ⟨S, a, l, stage, k, p, hp, ?_⟩
    generalize stage false = x at hc
    cases hc with
    | start h => exact .saw h
  | @empty id c h h1 h2 =>
    rw [h1] at hc
    have hs : stage false = .owes id c ∧ Takes c ∧ h = s.r.head := by
      generalize stage false = x at hc
      cases hc with
      | saw h => exact ⟨rfl, h, rfl⟩
    obtain ⟨hs, ht, hh⟩ := hs
    have hl : l = [] := List.eq_nil_of_length_eq_zero (by omega)
    subst hl
    have hstep : (worn T n).step (a, []) c (onEmpty c) (a, []) := by
      cases c with
      | dequeue => exact .other (by simp) .nothing
      | peek => exact .other (by simp) .peekNothing
      | isEmpty => exact .other (by simp) (.empty (l := []))
      | enqueue v => exact ht.elim
      | head => exact ht.elim
      | cap => exact ht.elim
      | isFull => exact ht.elim
    exact ⟨_, a, [], _, k.effect hs hstep, p, by rw [hne]; exact hp, by rw [Function.update_self]; exact .out⟩
  | @notEmpty id h h1 h2 =>
    rw [h1] at hc
    have hs : stage false = .owes id .isEmpty ∧ h = s.r.head := by
      generalize stage false = x at hc
      cases hc with
      | saw h => exact ⟨rfl, rfl⟩
    obtain ⟨hs, hh⟩ := hs
    have hl : l ≠ [] := fun e => by rw [e] at e1; simp at e1; omega
    have hstep : (worn T n).step (a, l) .isEmpty (.bool false) (a, l) := by
      have : (Res.bool false : Res T) = .bool (decide (l = [])) := by simp [hl]
      rw [this]
      exact .other (by simp) .empty
    exact ⟨_, a, l, _, k.effect hs hstep, p, by rw [hne]; exact hp, by rw [Function.update_self]; exact .out⟩
  | @some id c h h1 h3 h2 =>
    rw [h1] at hc
    refine ⟨S, a, l, stage, k, p, hp, ?_⟩
    generalize stage false = x at hc
    cases hc with
    | saw ht =>
      refine .some ?_ (fun e => by rw [e] at e1; simp at e1; omega)
      cases c <;> simp_all [Takes]
  | @read id x h1 h2 =>
    rw [h1] at hc
    refine ⟨S, a, l, stage, k, p, hp, ?_⟩
    generalize stage false = y at hc
    cases hc with
    | some _ hl =>
      cases l with
      | nil => exact absurd rfl hl
      | cons z l =>
        rw [at_front p] at h2
        cases h2
        exact .got rfl
  | @peek id x h1 h2 =>
    rw [h1] at hc
    have hs : stage false = .owes id .peek ∧ l ≠ [] := by
      generalize stage false = x at hc
      cases hc with
      | some _ h => exact ⟨rfl, h⟩
    obtain ⟨hs, hl⟩ := hs
    cases l with
    | nil => exact absurd rfl hl
    | cons z l =>
      rw [at_front p] at h2
      cases h2
      have hstep : (worn T n).step (a, x :: l) .peek (.val x) (a, x :: l) := .other (by simp) .peek
      exact ⟨_, a, _, _, k.effect hs hstep, p, by rw [hne]; exact hp, by rw [Function.update_self]; exact .out⟩
  | @panic id c h1 h2 =>
    rw [h1] at hc
    exfalso
    generalize stage false = x at hc
    cases hc with
    | some _ hl =>
      cases l with
      | nil => exact hl rfl
      | cons z l => rw [at_front p] at h2; cases h2
  | @take id v h1 =>
    rw [h1] at hc
    have hs : stage false = .owes id .dequeue ∧ ∃ l', l = v :: l' := by
      generalize stage false = x at hc
      cases hc with
      | got h => exact ⟨rfl, _, h⟩
    obtain ⟨hs, l', rfl⟩ := hs
    simp only [List.length_cons] at e1
    have hstep : (worn T n).step (a, v :: l') .dequeue (.val v) (a, l') := .other (by simp) .take
    have hnext : succ s.r s.r.head = s.r.head + 1 := by
      rw [succ, p.cap, Ring.next_small p.small e2 (by omega)]
    refine ⟨_, a, l', _, k.effect hs hstep, ⟨p.small, p.cap, e4, e5, e3, ?_, ?_, ?_⟩, ?_, by rw [Function.update_self]; exact .out⟩
    · simp only [hnext]; push_cast at e1; omega
    · simp only [hnext]; omega
    · intro i hi
      have := p.data (i + 1) (by simp; omega)
      rw [List.getElem?_cons_succ] at this
      rw [← this]
      simp only [hnext]
      congr 1
      omega
    · rw [hne]; exact hp
  | @ret id c r h1 =>
    rw [h1] at hc
    have hs : stage false = .done id c r := by
      generalize stage false = x at hc
      cases hc; rfl
    exact ⟨S, a, l, _, k.ret hs, p, by rw [hne]; exact hp, by rw [Function.update_self]; exact .idle⟩

theorem new_rep [Inhabited T] {n : Int} (h1 : n < 2 ^ 63 - 1) {r : Ring.Ring T} (hr : Ring.new n = .ret (some r)) :
    Rep n.toNat 0 r [] ∧ 0 < n.toNat := by
  have h0 : 0 < n := by
    by_contra hc
    unfold Ring.new at hr
    split at hr
    · cases hr
    · rw [if_pos (by omega)] at hr; cases hr
  obtain ⟨r', hr', p⟩ := Ring.new_rep (T := T) h0 h1
  rw [hr'] at hr
  cases hr
  exact ⟨⟨p.small, p.cap, p.dlen, p.tail, p.acc_le, p.head, p.head0, p.data⟩, by omega⟩

theorem Reach.inv [Inhabited T] {n : Int} (h1 : n < 2 ^ 63 - 1) {r : Ring.Ring T} (hr : Ring.new n = .ret (some r)) {s : St T} (h : Reach r s) :
    Inv n.toNat s := by
  induction h with
  | init => exact ⟨[], 0, [], _, Track.nil (o := worn T n.toNat), (new_rep h1 hr).1, .idle, .idle⟩
  | step _ st ih =>
    cases st with
    | prod st => exact inv_pstep ih st
    | cons st => exact inv_cstep ih st

/-- The number of calls of `Enqueue` in a sequence. -/
def puttings (S : List (Nat × Op T × Res T)) : Nat := S.countP fun
  | (_, .enqueue _, _) => true
  | _ => false

theorem puttings_le {o : Obj (Nat × List T) (Op T) (Res T)} {h : List (Event (Op T) (Res T))} {S : List (Nat × Op T × Res T)} {x : Nat × List T}
    (l : LinTo o h S x) : puttings S ≤ offers h := by
  have hnd : (S.map fun e => (Event.inv e.1 e.2.1 : Event (Op T) (Res T))).Nodup := by
    have h1 := l.once
    rw [List.Nodup, List.pairwise_map] at h1 ⊢
    exact h1.imp fun hne e => hne (by injection e)
  have hsub : (S.map fun e => (Event.inv e.1 e.2.1 : Event (Op T) (Res T))) ⊆ h := by
    intro x hx
    obtain ⟨e, he, rfl⟩ := List.mem_map.1 hx
    exact l.invoked e he
  have := (List.subperm_of_subset hnd hsub).countP_le (fun
    | .inv _ (.enqueue _) => true
    | _ => false)
  rw [List.countP_map] at this
  refine Nat.le_trans (Nat.le_of_eq ?_) this
  unfold puttings
  congr 1
  funext ⟨a, c, b⟩
  cases c <;> rfl

theorem legal_queue {n : Nat} {S : List (Nat × Op T × Res T)} {x : Nat × List T} (l : Legal (worn T n) S x) :
    x.2.length ≤ x.1 ∧ x.1 ≤ puttings S ∧ (puttings S ≤ n → Legal (queue T n) S x.2) := by
  induction l with
  | nil => exact ⟨Nat.le_refl _, Nat.le_refl _, fun _ => .nil (o := queue T n)⟩
  | @snoc S x x' id c r hl hs ih =>
    obtain ⟨i1, i2, i3⟩ := ih
    have hle : puttings S ≤ puttings (S ++ [(id, c, r)]) := by
      unfold puttings; rw [List.countP_append]; omega
    cases hs with
    | @put a l v ha =>
      have hc : puttings (S ++ [(id, .enqueue v, .bool true)]) = puttings S + 1 := by
        unfold puttings; rw [List.countP_append]; rfl
      simp only at i1 i2 i3 ⊢
      exact ⟨by simp; omega, by omega, fun h => .snoc (i3 (by omega)) (.put (by omega))⟩
    | refuse hl' => exact ⟨i1, by simp only at i2 ⊢; omega, fun h => .snoc (i3 (by omega)) (.refuse hl')⟩
    | @panic l v hl' =>
      have hc : puttings (S ++ [(id, .enqueue v, .panic)]) = puttings S + 1 := by
        unfold puttings; rw [List.countP_append]; rfl
      simp only at i1 i2 i3 ⊢
      exact ⟨i1, by omega, fun h => by omega⟩
    | @other a l c r l' hc hd =>
      refine ⟨?_, by simp only at i2 ⊢; omega, fun h => .snoc (i3 (by omega)) hd⟩
      simp only at i1 ⊢
      cases hd <;> first | (simp_all; done) | (simp only [List.length_cons] at i1; omega)

end Verif.RingPair
