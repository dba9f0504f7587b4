import Verif.Skl.Gone
import Verif.Skl.Props
/-!
# Deleting the key an iterator stands on: addition to C05
-/
set_option linter.unusedSectionVars false
namespace Verif.Skl
open Verif.Go Verif.MapSpec

section
variable {K V : Type} [GoOrdered K] [LawfulOrdered K] [DecidableEq K] [Inhabited K] [Inhabited V]

theorem gone_run {it : Iter} {q : Option K} : ∀ (ops : List (Op K V)) {hist : List (Op K V)} {w : World K V} {nodes : List Addr},
    Rep w nodes → Abs hist w nodes → Gone w nodes it q → (∀ s, .clear s ∉ ops) → (∀ k, q = some k → .del k ∉ ops) →
    ∃ w' nodes', run w ops = .ret w' ∧ Rep w' nodes' ∧ Abs (hist ++ ops) w' nodes' ∧ Gone w' nodes' it q := by
  intro ops
  induction ops with
  | nil => intro hist w nodes r h g _ _; exact ⟨w, nodes, rfl, r, by simpa using h, g⟩
  | cons op ops ih =>
    intro hist w nodes r h g hc hd
    have hc' : ∀ s, .clear s ∉ ops := fun s hs => hc s (by simp [hs])
    have hd' : ∀ k, q = some k → .del k ∉ ops := fun k hk hs => hd k hk (by simp [hs])
    cases op with
    | set k v =>
      obtain ⟨w', n', e, r', h', f, h1, h2⟩ := set_step r h k v
      obtain ⟨w'', n'', e2, r2, a2, g2⟩ := ih r' h' (g.set r e f h1 h2) hc' hd'
      exact ⟨w'', n'', by simp only [run, step, e, Outcome.bind_ret, e2], r2, by simpa using a2, g2⟩
    | del k =>
      obtain ⟨w', n', e, r', h', f, h1, h2⟩ := del_step r h k
      obtain ⟨w'', n'', e2, r2, a2, g2⟩ := ih r' h' (g.del r e f h1 h2 (fun hq => hd k hq (by simp))) hc' hd'
      exact ⟨w'', n'', by simp only [run, step, e, Outcome.bind_ret, Outcome.map_ret, e2], r2, by simpa using a2, g2⟩
    | clear s => exact absurd (by simp) (hc s)

/-- C05, the case it leaves out: the key the iterator stands on is deleted. The iterator then leads to the key that was next at that
moment (`q`), with its current value, whatever is set or deleted in between, as long as `q` itself is not deleted and the map is not
cleared. Keys set in between that lie before `q` are passed over (`C05_passed_over`). -/
theorem C05_deleted {seed : BitVec 64} {hist : List (Op K V)} {w : World K V} {k : K} {it : Iter} (hr : Reach seed hist w (.at k) it) :
    ∃ w₁ q, Skl.del w k = .ret (w₁, true) ∧ IsSucc hist k q ∧
      ∀ ops : List (Op K V), (∀ s, .clear s ∉ ops) → (∀ k', q = some k' → .del k' ∉ ops) →
        ∃ w₂ it', run w₁ ops = .ret w₂ ∧ match q with
          | none => Skl.next w₂ it = .ret (it', none)
          | some k' => ∃ v, Skl.next w₂ it = .ret (it', some (k', v)) ∧ lookup (hist ++ .del k :: ops) k' = some v := by
  obtain ⟨nodes, r, h, hp⟩ := hr.inv
  obtain ⟨w₁, n₁, q, e, r₁, h₁, f, hq, g⟩ := del_at r h hp
  refine ⟨w₁, q, e, hq, fun ops hc hd => ?_⟩
  obtain ⟨w₂, n₂, e₂, r₂, h₂, g₂⟩ := gone_run ops r₁ h₁ g hc hd
  have ng := next_gone r₂ h₂ g₂
  cases q with
  | none => obtain ⟨it', e'⟩ := ng; exact ⟨w₂, it', e₂, e'⟩
  | some k' =>
    obtain ⟨it', v, e', hl, -⟩ := ng
    exact ⟨w₂, it', e₂, v, e', by simpa using hl⟩

end

/-- What C05 would promise is false after the deletion: with 1 and 3 in the map and the iterator on 1, `Del(1)`, `Set(2, …)`, `Next`
passes over 2. -/
theorem C05_passed_over : ∃ w it, Reach (K := Int) (V := Int) 0#64 [.set 1 10, .set 3 30] w (.at 1) it ∧
    ∃ w₂ it', run w [.del 1, .set 2 20] = .ret w₂ ∧ Skl.get w₂ 2 = .ret (some 20) ∧ Skl.next w₂ it = .ret (it', some (3, 30)) := by
  obtain ⟨w1, e1⟩ := (C05_calls_return (Reach.init (K := Int) (V := Int) (s := 0#64)) 1 10).1
  have r1 := Reach.init.set e1
  obtain ⟨w2, e2⟩ := (C05_calls_return r1 3 30).1
  have r2 := r1.set e2
  obtain ⟨it', res, e, hn⟩ := C05_iteration_under_modification r2 (by simp)
  have hres : res = some (1, 10) := by
    refine C05_isNext_unique hn ⟨trivial, by decide, ?_⟩
    intro z _ hz
    simp only [lookup, List.nil_append, List.cons_append, List.foldl_cons, List.foldl_nil] at hz
    by_cases h1 : z = 1
    · exact .inl h1
    · by_cases h3 : z = 3
      · exact .inr (by simp [GoOrdered.lt, h3])
      · simp [h1, h3] at hz
  subst hres
  have r3 := r2.next (by simp) e
  refine ⟨w2, it', r3, ?_⟩
  obtain ⟨w₁, q, ed, hq, hall⟩ := C05_deleted r3
  have hq' : q = some 3 := by
    cases q with
    | none => exact absurd (hq 3 (by simp [GoOrdered.lt])) (by decide)
    | some k' =>
      obtain ⟨h1, h2, h3⟩ := hq
      simp only [GoOrdered.lt, decide_eq_true_eq] at h1 h3
      by_cases h : k' = 3
      · rw [h]
      · have : k' ≠ 1 := by omega
        simp [lookup, h, this] at h2
  subst hq'
  obtain ⟨w₂, it'', e2', v, hn', hl⟩ := hall [.set 2 20] (by simp) (by simp)
  have hv : v = 30 := by
    have : (some v : Option Int) = some 30 := by rw [← hl]; decide
    simpa using this
  subst hv
  refine ⟨w₂, it'', by simp only [run, step, ed, Outcome.bind_ret, Outcome.map_ret]; simpa [run, step] using e2', ?_, hn'⟩
  obtain ⟨n2, rr, ha, hp⟩ := r3.inv
  obtain ⟨w₁', n₁, ed', r₁, h₁, f, -⟩ := del_step rr ha 1
  rw [ed] at ed'
  simp only [Outcome.ret_inj, Prod.mk.injEq] at ed'
  obtain ⟨rfl, -⟩ := ed'
  obtain ⟨w₂', n₂, es, r₂, h₂, -⟩ := set_step r₁ h₁ 2 20
  have : w₂' = w₂ := by
    simp only [run, step, es, Outcome.bind_ret, Outcome.ret_inj] at e2'
    exact e2'
  subst this
  rw [get_spec r₂ h₂]
  decide

end Verif.Skl
