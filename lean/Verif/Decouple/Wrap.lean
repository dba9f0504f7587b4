import Verif.Decouple.Seq
/-!
# Runs used as counterexamples
-/
namespace Verif.Decouple

variable {α : Type} {size : Nat} {payload : Nat → List α} {s : St α}

/-- A whole `Write` call that finds its slot empty. -/
theorem write_once (hs : size ≠ 0) (r : Reach size payload s) {j ts i : Nat} (hp : (payload j).length ≠ 0) (h0 : s.wpc j = .new)
    (ht : (s.wr + 1) % W = ts) (hi : slot size ts = i) (he : s.lock i = emptyL) :
    Reach size payload { s with
      wr := ts, attempts := s.attempts + 1, len := (s.len + 1) % W
      lock := fun x => if x = i then ts else s.lock x
      buf := fun x => if x = i then payload j else s.buf x
      wpc := fun x => if x = j then .accepted else s.wpc x } := by
  subst ht hi
  have r1 := r.step (.call _ j h0 hp)
  have r2 := r1.step (.add _ j (by simp [St.at]) hs)
  have r3 := r2.step (.loadEmpty _ j ((s.wr + 1) % W) (by simp [St.at]) (by simpa [St.at] using he))
  have r4 := r3.step (.casOk _ j ((s.wr + 1) % W) (by simp [St.at]) (by simpa [St.at] using he))
  have r5 := r4.step (.copy _ j ((s.wr + 1) % W) (by simp [St.at]))
  have r6 := r5.step (.store _ j ((s.wr + 1) % W) (by simp [St.at]))
  have r7 := r6.step (.incr _ j (by simp [St.at]))
  convert r7 using 1
  simp only [St.at, St.mk.injEq, true_and, and_true]
  exact ⟨by funext x; grind, by funext x; grind⟩

/-- A whole `Next` call that finds its slot full. -/
theorem next_once (hs : size ≠ 0) (r : Reach size payload s) {i : Nat} (h0 : s.rpc = .idle) (hl : s.len ≠ 0)
    (hi : slot size s.rd = i) (hf : full (s.lock i) = true) :
    Reach size payload { s with
      rd := (s.rd + 1) % W, len := (s.len + (W - 1)) % W
      lock := fun x => if x = i then emptyL else s.lock x
      log := s.log ++ [s.buf i]
      rpc := .idle } := by
  subst hi
  rw [full_iff] at hf
  have r1 := r.step (.next _ h0 hl hs)
  have r2 := r1.step (.spinEnd _ _ rfl hf.1 hf.2)
  have r3 := r2.step (.view _ _ rfl)
  have r4 := r3.step (.clear _ _ rfl)
  exact r4.step (.decr _ rfl)

theorem spin_slot (r : Reach size payload s) {i : Nat} (h : s.rpc = .spin i) : i = slot size s.rd := by
  induction r with
  | init => cases h
  | step _ st ih => cases st <;> first | exact ih h | (cases h; rfl) | cases h

/-- `n` writes, each followed by a `Next`, on a decoupler of size 1. -/
theorem rounds (hp : ∀ j, (payload j).length ≠ 0) : ∀ n, n ≤ W - 2 → ∃ s, Reach 1 payload s ∧ s.wr = (n + (W - 1)) % W ∧
    s.len = 0 ∧ (∀ i, s.lock i = emptyL) ∧ s.rpc = .idle ∧ (∀ j, n ≤ j → s.wpc j = .new) ∧ s.log = (List.range n).map payload := by
  intro n
  induction n with
  | zero => intro _; exact ⟨init, .init, by simp [init], rfl, fun _ => rfl, rfl, fun _ _ => rfl, by simp [init]⟩
  | succ n ih =>
    intro hn
    obtain ⟨s, r, h1, h2, h3, h4, h5, h6⟩ := ih (by omega)
    have ht : (s.wr + 1) % W = n := by rw [h1]; exact att_step (by unfold W at *; omega)
    have sl0 : ∀ x, slot 1 x = 0 := fun x => by unfold slot; omega
    have r1 := write_once (by decide) r (hp n) (h5 n (Nat.le_refl _)) ht (sl0 n) (h3 0)
    have r2 := next_once (by decide) r1 (i := 0) h4 (by simp [h2]) (sl0 _)
      (by simp only [if_true]; rw [full_iff]; unfold emptyL busyL W at *; omega)
    refine ⟨_, r2, ?_, ?_, ?_, rfl, ?_, ?_⟩
    · simp only; unfold W at *; omega
    · simp only [h2]; decide
    · intro i; simp only; split
      · rfl
      · exact h3 i
    · intro j hj; simp only; rw [if_neg (by omega)]; exact h5 j (by omega)
    · simp only [if_true, h6, List.range_succ, List.map_append, List.map_cons, List.map_nil]

end Verif.Decouple
