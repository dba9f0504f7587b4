import Verif.SyncMap.Lemmas
/-!
# Without new calls the concurrent map comes to rest
-/
set_option linter.unusedSectionVars false
namespace Verif.SyncMap
open Verif.Conc

variable {K V : Type} [DecidableEq K] [DecidableEq V] [Inhabited V]

/-- A step that does not invoke a method. -/
def Quiet (s s' : St K V) : Prop := Step s s' ∧ s'.next = s.next

/-- Goroutines from `N` on are outside. -/
def Below (N : Nat) (s : St K V) : Prop := ∀ t, N ≤ t → s.pc t = .idle

theorem reach_below {s : St K V} (h : Reach s) : ∃ N, Below N s := by
  induction h with
  | init => exact ⟨0, fun _ _ => rfl⟩
  | @step s s' _ st ih =>
    obtain ⟨N, hN⟩ := ih
    have key : ∀ t p, s'.pc = setPc s.pc t p → ∃ N, Below N s' := by
      intro t p e
      refine ⟨max N (t + 1), fun t' ht' => ?_⟩
      rw [e, setPc_ne _ _ (by omega)]
      exact hN t' (by omega)
    cases st <;> exact key _ _ rfl

/-- The stages a goroutine still has before it. -/
def stage : Pc K V → Nat
  | .idle => 0
  | .out .. => 1
  | .held .. => 2
  | .body .. => 3
  | .want .. => 4

/-- The entries a loop has not seen. -/
def left (m : List (K × V)) : Pc K V → Nat
  | .body _ _ acc => (m.filter (fun e => decide (e ∉ acc))).length
  | _ => 0

/-- Sum over the first goroutines. -/
def total (g : Pc K V → Nat) (pc : Nat → Pc K V) : Nat → Nat
  | 0 => 0
  | n + 1 => total g pc n + g (pc n)

theorem total_setPc (g : Pc K V → Nat) (pc : Nat → Pc K V) (t : Nat) (p : Pc K V) : ∀ N,
    total g (setPc pc t p) N + (if t < N then g (pc t) else 0) = total g pc N + (if t < N then g p else 0)
  | 0 => by simp [total]
  | N + 1 => by
    have ih := total_setPc g pc t p N
    simp only [total]
    by_cases h : t < N
    · rw [if_pos h, if_pos h] at ih
      rw [if_pos (by omega), if_pos (by omega), setPc_ne _ _ (by omega)]
      omega
    · rw [if_neg h, if_neg h] at ih
      by_cases h' : t = N
      · subst h'
        rw [if_pos (by omega), if_pos (by omega), setPc_same]
        omega
      · rw [if_neg (by omega), if_neg (by omega), setPc_ne _ _ (fun e => h' e.symm)]
        omega

/-- Stages left, then entries left. -/
def measure (N : Nat) (s : St K V) : Nat × Nat := (total stage s.pc N, total (left s.m) s.pc N)

theorem quiet_below {N : Nat} {s s' : St K V} (h : Quiet s s') (b : Below N s) : Below N s' := by
  have key : ∀ t p, s'.pc = setPc s.pc t p → s.pc t ≠ .idle → Below N s' := by
    intro t p e hne t' ht'
    rw [e]
    by_cases h : t' = t
    · subst h; exact absurd (b t' ht') hne
    · rw [setPc_ne _ _ h]; exact b t' ht'
  obtain ⟨st, hn⟩ := h
  cases st with
  | invoke h => simp at hn
  | rlock h _ _ => exact key _ _ rfl (by rw [h]; simp)
  | lock h _ _ _ => exact key _ _ rfl (by rw [h]; simp)
  | iter h _ _ _ => exact key _ _ rfl (by rw [h]; simp)
  | access h _ => exact key _ _ rfl (by rw [h]; simp)
  | runlock h _ => exact key _ _ rfl (by rw [h]; simp)
  | unlock h _ => exact key _ _ rfl (by rw [h]; simp)
  | ret h => exact key _ _ rfl (by rw [h]; simp)

theorem left_lt {m acc : List (K × V)} {e : K × V} (he : e ∈ m) (hn : e ∉ acc) :
    (m.filter (fun x => decide (x ∉ acc ++ [e]))).length < (m.filter (fun x => decide (x ∉ acc))).length := by
  have h : m.filter (fun x => decide (x ∉ acc ++ [e])) = (m.filter (fun x => decide (x ∉ acc))).filter (fun x => decide (x ≠ e)) := by
    rw [List.filter_filter]
    apply List.filter_congr
    intro x _
    simp [and_comm]
  rw [h]
  refine List.length_filter_lt_length_iff_exists.2 ⟨e, ?_, by simp⟩
  simp [he, hn]

theorem quiet_measure {N : Nat} {s s' : St K V} (h : Quiet s s') (b : Below N s) :
    Prod.Lex (· < ·) (· < ·) (measure N s') (measure N s) := by
  have hlt : ∀ t, s.pc t ≠ .idle → t < N := fun t ht => by
    by_contra hc
    exact ht (b t (by omega))
  have key : ∀ t p, s'.pc = setPc s.pc t p → s.pc t ≠ .idle → stage p < stage (s.pc t) →
      Prod.Lex (· < ·) (· < ·) (measure N s') (measure N s) := by
    intro t p e hne hs
    refine Prod.Lex.left _ _ ?_
    have := total_setPc stage s.pc t p N
    rw [if_pos (hlt t hne), if_pos (hlt t hne)] at this
    rw [e]
    omega
  obtain ⟨st, hn⟩ := h
  cases st with
  | invoke h => simp at hn
  | rlock h _ _ => exact key _ _ rfl (by rw [h]; simp) (by rw [h]; simp [stage])
  | lock h _ _ _ => exact key _ _ rfl (by rw [h]; simp) (by rw [h]; simp [stage])
  | access h _ => exact key _ _ rfl (by rw [h]; simp) (by rw [h]; simp [stage])
  | runlock h _ => exact key _ _ rfl (by rw [h]; simp) (by rw [h]; simp [stage])
  | unlock h _ => exact key _ _ rfl (by rw [h]; simp) (by rw [h]; simp [stage])
  | ret h => exact key _ _ rfl (by rw [h]; simp) (by rw [h]; simp [stage])
  | @iter t id c acc e h _ he hnot =>
    have ht := hlt t (by rw [h]; simp)
    have h1 := total_setPc stage s.pc t (.body id c (acc ++ [e])) N
    have h2 := total_setPc (left s.m) s.pc t (.body id c (acc ++ [e])) N
    have h3 := left_lt he hnot
    rw [if_pos ht, if_pos ht, h] at h1 h2
    have e1 : total stage (setPc s.pc t (.body id c (acc ++ [e]))) N = total stage s.pc N := by
      simp only [stage] at h1; omega
    unfold measure
    simp only [e1]
    refine Prod.Lex.right _ ?_
    simp only [left] at h2 ⊢
    omega

theorem quiet_acc {N : Nat} (s : St K V) (b : Below N s) : Acc (fun s' s : St K V => Quiet s s') s := by
  have wf : WellFounded (Prod.Lex (· < · : Nat → Nat → Prop) (· < · : Nat → Nat → Prop)) :=
    (Prod.lex ⟨_, Nat.lt_wfRel.wf⟩ ⟨_, Nat.lt_wfRel.wf⟩).wf
  generalize hm : measure N s = w
  induction w using wf.induction generalizing s with
  | _ w ih =>
    subst hm
    exact ⟨_, fun s' hs => ih _ (quiet_measure hs b) s' (quiet_below hs b) rfl⟩

end Verif.SyncMap
