import Verif.SklLoop.Lemmas
/-!
# C169: loops with iterators over a shared skip-list map

`s1` is any moment when the loop of goroutine `t` is about to begin, `s` one when it is done; `h1` are calls that brought the map to where it is in
`s1`, and `since` the `Set` and `Del` calls of all goroutines after that.
-/
set_option linter.unusedSectionVars false
namespace Verif.SklLoop
open Verif.Go Verif.Conc Verif.Conc.RW Verif.Skl Verif.MapSpec Verif.SklShare Verif.SklWeak Relation

section
variable {K V Q : Type} [GoOrdered K] [LawfulOrdered K] [DecidableEq K] [Inhabited K] [Inhabited V] {seed : BitVec 64}
  {q : Client Q (Call K V) (Res K V)} {l : Nat → Loop K V ⊕ Q}

/-- The states of the goroutines, the map and the mutex. -/
abbrev St (K V Q : Type) [GoOrdered K] [LawfulOrdered K] [DecidableEq K] [Inhabited K] [Inhabited V] (seed : BitVec 64) :=
  CSt (Mem K V seed) (Loc K V) (Call' K V) (Res' K V) (Loop K V ⊕ Q)

/-- **C169.** Whatever the other goroutines set and delete meanwhile: the loop is given keys in ascending order, each with a value it had at some
moment since the loop was about to begin, and no key is missed that was in the map all the time. -/
theorem C169_loop (hq : NoClear q) {s1 s : St K V Q seed} (hr : CReach (object K V seed) (withLoop q) l s1) {t : Nat}
    (h0 : s1.loc t = .inl (.go iterator [])) (hi : s1.obj.pc t = .idle) (hs : ReflTransGen (CStep (object K V seed) (withLoop q)) s1 s)
    {out : List (K × V)} (ht : s.loc t = .inl (.done out)) {h1 : List (Op K V)} (hm : run (Skl.new seed) h1 = .ret s1.obj.m.1) :
    ∃ since, Calls q (RW.abs (withLoop q) s1) since (RW.abs (withLoop q) s) ∧ run (Skl.new seed) (h1 ++ since) = .ret s.obj.m.1 ∧
      out.Pairwise (fun a b => GoOrdered.lt a.1 b.1 = true) ∧ (∀ e ∈ out, Was h1 since e.1 e.2) ∧
      (∀ k, Always h1 since k → ∃ v, (k, v) ∈ out) ∧
      ∀ k v, Untouched k since → ((k, v) ∈ out ↔ lookup h1 k = some v) := by
  obtain ⟨since, hc⟩ := calls_of_path (atomic_from readsOnly hr hs)
  have hrun := calls_run (h := h1) hm hc
  have hsi := since_calls (a := RW.abs (withLoop q) s1) hq hm (t := t) (by simp only [RW.abs, hi]; exact h0) hc
  have hv : (RW.abs (withLoop q) s).2 t = .inl (.done out) := by
    have : s.obj.pc t = .idle := idle_of_done (hr.later hs) (by rw [ht]; rfl)
    simp only [RW.abs, this]; exact ht
  rcases hsi with ⟨it, out', e, _⟩ | ⟨pre, w, it, it', out', hp, e, hit, hn⟩
  · rw [hv] at e; cases e
  · rw [hv] at e
    cases e
    obtain ⟨c1, c2, c3⟩ := C163_weakly_consistent hit hn
    have was : ∀ e ∈ out'.map kv, Was h1 since e.1 e.2 := by
      intro e he
      obtain ⟨g, hg, rfl⟩ := List.mem_map.1 he
      exact (c2 g hg).2.mono hp
    have all : ∀ k, Always h1 since k → ∃ v, (k, v) ∈ out'.map kv := by
      intro k ha
      obtain ⟨g, hg, rfl⟩ := c3 k (ha.mono hp) trivial
      exact ⟨g.val, List.mem_map.2 ⟨g, hg, rfl⟩⟩
    refine ⟨since, hc, hrun, List.pairwise_map.2 c1, was, all, fun k v hu => ⟨fun he => ?_, fun he => ?_⟩⟩
    · obtain ⟨pre', hp', hl⟩ := was _ he
      rwa [untouched_lookup (hu.prefix hp')] at hl
    · obtain ⟨v', hv'⟩ := all k fun pre' hp' => by rw [untouched_lookup (hu.prefix hp'), he]; rfl
      obtain ⟨pre', hp', hl⟩ := was _ hv'
      rw [untouched_lookup (hu.prefix hp'), he] at hl
      cases hl
      exact hv'

/-- **C169, no panics.** `Next` never panics, whatever has been deleted from under the iterators. -/
theorem C169_no_panic (hq : NoClear q) (hl : Fresh l) {s : St K V Q seed} (h : CReach (object K V seed) (withLoop q) l s) (t : Nat) :
    s.loc t ≠ .inl .crash := by
  intro hc
  have hi : s.obj.pc t = .idle := idle_of_done h (by rw [hc]; rfl)
  obtain ⟨hist, hcalls⟩ := calls_areach (atomic readsOnly h)
  have hv : (RW.abs (withLoop q) s).2 t = .inl .crash := by simp only [RW.abs, hi]; exact hc
  match hlt : l t with
  | .inl x =>
    have := hl t x hlt
    subst this
    rcases since_calls hq (h1 := []) rfl hlt hcalls with ⟨it, out', e, _⟩ | ⟨_, _, _, _, _, _, e, _, _⟩ <;> rw [hv] at e <;> cases e
  | .inr z =>
    have key : ∀ {ops b}, Calls q (⟨Skl.new seed, [], rfl⟩, l) ops b → ∃ z, b.2 t = .inr z := by
      intro ops b hb
      induction hb with
      | none => exact ⟨z, hlt⟩
      | @more ops b c u _ st ih =>
        obtain ⟨z, hz⟩ := ih
        cases st with
        | @mk m l c r m' hc hst =>
          by_cases e : t = u
          · subst e
            simp only at hz
            simp only [setLoc_same, hz]
            match r with
            | .inl r => exact ⟨_, rfl⟩
            | .inr r => exact ⟨z, rfl⟩
          · simp only [setLoc_ne _ _ e]; exact ⟨z, hz⟩
    obtain ⟨z', hz'⟩ := key hcalls
    rw [hv] at hz'; cases hz'

/-- **C169, an end.** Finitely many loops come to their end if the others do: no loop runs for ever after keys that are set ahead of it. -/
theorem C169_ends (hq : NoClear q) (hl : Fresh l) {μ : Q → Nat} (hμ : ∀ x c r, q.call x = some c → μ (q.resume x r) < μ x) {N : Nat}
    (hN : ∀ t, N ≤ t → (withLoop q).call (l t) = none) {s : St K V Q seed} (h : CReach (object K V seed) (withLoop q) l s) :
    Acc (fun s' s => CStep (object K V seed) (withLoop q) s s') s ∧
      ((¬ ∃ s', CStep (object K V seed) (withLoop q) s s') → ∀ t, (∃ out, s.loc t = .inl (.done out)) ∨ ∃ x, s.loc t = .inr x ∧ q.call x = none) := by
  constructor
  · obtain ⟨hist, hc⟩ := calls_areach (atomic readsOnly h)
    exact client_ends' readsOnly shrinks hN h (acc_astep hq hμ hl hN _ hist _ hc (Nat.lt_succ_self _))
  · intro hn t
    have hc := (stuck readsOnly live h hn t).2
    have hnp := C169_no_panic hq hl h t
    generalize s.loc t = x at hc hnp
    match x with
    | .inl (.go it out) => cases hc
    | .inl (.done out) => exact .inl ⟨out, rfl⟩
    | .inl .crash => exact absurd rfl hnp
    | .inr z =>
      refine .inr ⟨z, rfl, ?_⟩
      have hc' : (q.call z).map Sum.inl = none := hc
      simpa using hc'

/-- **C169, a bound.** A loop is never given more entries than `Set` calls have been made. -/
theorem C169_bound (hq : NoClear q) (hl : Fresh l) {s : St K V Q seed} (h : CReach (object K V seed) (withLoop q) l s) :
    ∃ hist, Calls q (⟨Skl.new seed, [], rfl⟩, l) hist (RW.abs (withLoop q) s) ∧
      ∀ t it out, (RW.abs (withLoop q) s).2 t = .inl (.go it out) → out.length ≤ (setKeys hist).length := by
  obtain ⟨hist, hc⟩ := calls_areach (atomic readsOnly h)
  exact ⟨hist, hc, fun t it out ht => given_le hq hl hc ht⟩

end

/-! ## A case -/

/-- Goroutines that make the calls of a list one after the other. -/
def script : Client (List (Call Int Int)) (Call Int Int) (Res Int Int) where
  call cs := cs.head?.bind fun c => match c with
    | .clear _ => none
    | c => some c
  resume cs _ := cs.tail

/-- Goroutine 0 loops, goroutine 1 sets and deletes. -/
def two : Nat → Loop Int Int ⊕ List (Call Int Int)
  | 0 => .inl (.go iterator [])
  | 1 => .inr [.set 1 10, .set 3 30, .del 1, .set 2 20]
  | _ => .inr []

example : NoClear script ∧ Fresh two ∧ (∀ t, 2 ≤ t → (withLoop script).call (two t) = none) ∧
    ∀ (x : List (Call Int Int)) c r, script.call x = some c → (script.resume x r).length < x.length := by
  refine ⟨fun x s h => ?_, fun t x h => ?_, fun t ht => ?_, fun x c r h => ?_⟩
  · match x with
    | [] => cases h
    | c :: _ => cases c <;> simp [script] at h
  · match t with
    | 0 => cases h; rfl
    | 1 => cases h
    | t + 2 => cases h
  · match t with
    | t + 2 => rfl
  · match x with
    | [] => cases h
    | _ :: x => exact Nat.lt_succ_self _

/-- The memory after some calls. -/
def world (h : List (Op Int Int)) : World Int Int := match run (Skl.new 0#64) h with
  | .ret w => w
  | _ => Skl.new 0#64

theorem run_world (h : List (Op Int Int)) : run (Skl.new 0#64) h = .ret (world h) := by
  obtain ⟨w, nodes, e, _⟩ := run_rep (K := Int) (V := Int) 0#64 h
  unfold world
  rw [e]

def mem (h : List (Op Int Int)) : Mem Int Int 0#64 := ⟨world h, h, run_world h⟩

theorem step_world (h : List (Op Int Int)) (o : Op Int Int) : Skl.step (world h) o = .ret (world (h ++ [o])) := by
  have e := run_world (h ++ [o])
  rw [run_append, run_world h] at e
  have e2 : (Skl.step (world h) o).bind (fun w' => .ret w') = .ret (world (h ++ [o])) := e
  cases h3 : Skl.step (world h) o with
  | ret w' => rw [h3] at e2; exact e2
  | panic => rw [h3] at e2; cases e2
  | hang => rw [h3] at e2; cases e2

theorem del_world (h : List (Op Int Int)) (k : Int) : ∃ b, Skl.del (world h) k = .ret (world (h ++ [.del k]), b) := by
  have e := step_world h (.del k)
  simp only [Skl.step] at e
  cases hd : Skl.del (world h) k with
  | ret x => obtain ⟨w, b⟩ := x; rw [hd] at e; simp at e; exact ⟨b, by rw [e]⟩
  | panic => rw [hd] at e; cases e
  | hang => rw [hd] at e; cases e

theorem set_fin (h : List (Op Int Int)) (k v : Int) : Finish (mem h) (.set k v) .start .unit (mem (h ++ [.set k v])) := .set (step_world h (.set k v))

/-- What `Next` does, in plain data. -/
def nextIs (w : World Int Int) (it : Iter) : Option (Option Nat × Option (Int × Int)) := match Skl.next w it with
  | .ret (i, e) => some (i.node, e)
  | _ => none

theorem next_of_is {w : World Int Int} {it it' : Iter} {e : Option (Int × Int)} (h : nextIs w it = some (it'.node, e)) : .ret (it', e) = Skl.next w it := by
  unfold nextIs at h
  cases hn : Skl.next w it with
  | ret x => obtain ⟨i, e'⟩ := x; rw [hn] at h; simp at h; obtain ⟨h1, rfl⟩ := h; cases i; cases it'; simp at h1; rw [h1]
  | panic => rw [hn] at h; cases h
  | hang => rw [hn] at h; cases h

theorem inl_step {m m' : Mem Int Int 0#64} {c : Call Int Int} {r : Res Int Int} (hf : Finish m c .start r m') :
    (seqObj (object Int Int 0#64)).step m (.inl c) (.inl r) m' := ⟨.start, .refl, hf⟩

theorem inr_step (h : List (Op Int Int)) (it it' : Iter) (e : Option (Int × Int)) (hn : nextIs (world h) it = some (it'.node, e)) :
    (seqObj (object Int Int 0#64)).step (mem h) (.inr it) (.inr (.ret (it', e))) (mem h) := ⟨.start, .refl, next_of_is hn, rfl⟩

/-- What `Get` gives, in plain data. -/
def getIs (w : World Int Int) (k : Int) : Option (Option Int) := match Skl.get w k with
  | .ret v => some v
  | _ => none

theorem get_of_is {w : World Int Int} {k : Int} {v : Option Int} (h : getIs w k = some v) : Skl.get w k = .ret v := by
  unfold getIs at h
  cases hn : Skl.get w k with
  | ret x => rw [hn] at h; simp at h; rw [h]
  | panic => rw [hn] at h; cases h
  | hang => rw [hn] at h; cases h

/-- The loop is given 1, then 1 is deleted and 2 is set, and the loop goes on from the deleted 1 to 3: the key 2, set ahead of it, is missed. -/
theorem C169_missed : ∃ s : St Int Int (List (Call Int Int)) 0#64, CReach (object Int Int 0#64) (withLoop script) two s ∧
    s.loc 0 = .inl (.done [(1, 10), (3, 30)]) ∧ Skl.get s.obj.m.1 2 = .ret (some 20) := by
  have h := AReach.start (o := seqObj (object Int Int 0#64)) (p := withLoop script) (l := two)
  have s0 : Skl.set (Skl.new 0#64 : World Int Int) 1 10 = .ret (world [.set 1 10]) := by
    have := step_world [] (.set 1 10)
    rw [show world [] = Skl.new 0#64 from rfl] at this
    exact this
  have f0 : Finish (⟨Skl.new 0#64, [], rfl⟩ : Mem Int Int 0#64) (.set 1 10) .start .unit (mem [.set 1 10]) := Finish.set s0
  obtain ⟨b, hb⟩ := del_world [.set 1 10, .set 3 30] 1
  have f1 : Finish (mem [.set 1 10, .set 3 30]) (.del 1) .start (.bool b) (mem [.set 1 10, .set 3 30, .del 1]) := Finish.del hb
  replace h := h.step (t := 1) (.mk rfl (inl_step f0))
  replace h := h.step (t := 1) (.mk rfl (inl_step (set_fin [.set 1 10] 3 30)))
  replace h := h.step (t := 0) (.mk rfl (inr_step [.set 1 10, .set 3 30] iterator ⟨some 2⟩ (some (1, 10)) (by decide +kernel)))
  replace h := h.step (t := 1) (.mk rfl (inl_step f1))
  replace h := h.step (t := 1) (.mk rfl (inl_step (set_fin [.set 1 10, .set 3 30, .del 1] 2 20)))
  replace h := h.step (t := 0) (.mk rfl (inr_step [.set 1 10, .set 3 30, .del 1, .set 2 20] ⟨some 2⟩ ⟨some 3⟩ (some (3, 30)) (by decide +kernel)))
  replace h := h.step (t := 0) (.mk rfl (inr_step [.set 1 10, .set 3 30, .del 1, .set 2 20] ⟨some 3⟩ ⟨some 1⟩ none (by decide +kernel)))
  obtain ⟨s, h1, h2, h3, _⟩ := sequential h
  refine ⟨s, h1, by rw [h3]; rfl, ?_⟩
  rw [h2]
  exact get_of_is (w := world [.set 1 10, .set 3 30, .del 1, .set 2 20]) (by decide +kernel)

/-- All hypotheses of `C169_loop`: from the start to the end of that run. -/
example : ∃ s1 s : St Int Int (List (Call Int Int)) 0#64, CReach (object Int Int 0#64) (withLoop script) two s1 ∧
    s1.loc 0 = .inl (.go iterator []) ∧ s1.obj.pc 0 = .idle ∧ ReflTransGen (CStep (object Int Int 0#64) (withLoop script)) s1 s ∧
    s.loc 0 = .inl (.done [(1, 10), (3, 30)]) ∧ run (Skl.new 0#64) [] = .ret s1.obj.m.1 := by
  obtain ⟨s, h1, h2, h3⟩ := C169_missed
  have hp : ReflTransGen (CStep (object Int Int 0#64) (withLoop script)) ⟨RW.start (object Int Int 0#64), two⟩ s := by
    clear h2 h3
    induction h1 with
    | start => exact .refl
    | step _ st ih => exact ih.tail st
  exact ⟨_, s, .start, rfl, rfl, hp, h2, rfl⟩

end Verif.SklLoop
