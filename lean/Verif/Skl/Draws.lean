import Verif.Skl.Props
/-!
# The states a map's generator goes through: addition to C07
-/
set_option linter.unusedSectionVars false
namespace Verif.Skl
open Verif.Go Verif.MapSpec

/-- From `seed` the history leads to a map whose generator started at `s` (the seed of the last `Clear`, if there was one) and which
was given `n` new keys since. -/
inductive Drawn {K V : Type} [DecidableEq K] (seed : BitVec 64) : List (Op K V) → BitVec 64 → Nat → Prop where
  | nil : Drawn seed [] seed 0
  | new {h s n k v} : Drawn seed h s n → lookup h k = none → Drawn seed (h ++ [.set k v]) s (n + 1)
  | old {h s n k v} : Drawn seed h s n → lookup h k ≠ none → Drawn seed (h ++ [.set k v]) s n
  | del {h s n k} : Drawn seed h s n → Drawn seed (h ++ [.del k]) s n
  | clear {h s n s'} : Drawn seed h s n → Drawn seed (h ++ [.clear s']) s' 0

theorem stateAfter_add (s : BitVec 64) (n m : Nat) : stateAfter (stateAfter s n) m = stateAfter s (n + m) := by
  induction m with
  | zero => rfl
  | succ m ih => rw [← Nat.add_assoc, stateAfter, stateAfter, ih]

theorem randHeightLoop_state : ∀ (m : Nat) (seed : BitVec 64), 1 ≤ m →
    ∃ d, 1 ≤ d ∧ d ≤ m ∧ (randHeightLoop m seed).2 = stateAfter seed d
  | m + 1, seed, _ => by
    rw [randHeightLoop]
    split
    rename_i seed' v he
    have h1 : stateAfter seed 1 = seed' := by simp [stateAfter, he]
    split
    · exact ⟨1, by omega, by omega, h1.symm⟩
    · cases m with
      | zero => exact ⟨1, by omega, by omega, h1.symm⟩
      | succ m =>
        obtain ⟨d, h2, h3, h4⟩ := randHeightLoop_state (m + 1) seed' (by omega)
        exact ⟨1 + d, by omega, by omega, by rw [h4, ← stateAfter_add, h1]⟩

section
variable {K V : Type} [GoOrdered K] [LawfulOrdered K] [DecidableEq K] [Inhabited K] [Inhabited V]

theorem insertWith_seed {hist : List (Op K V)} {w w' : World K V} {nodes : List Addr} (r : Rep w nodes) (h : Abs hist w nodes) {k : K}
    {v : V} {rh : Nat × BitVec 64} (e : Skl.insertWith rh w k v = .ret w') :
    w'.skl.seed = if lookup hist k = none then rh.2 else w.skl.seed := by
  obtain ⟨ctx, _, ⟨x, S, hn, hx, hs⟩ | ⟨hk, hs⟩⟩ := r.search k
  · have hl : lookup hist k = some (w.heap.mem x).value := (h k _).2 ⟨x, by rw [hn]; simp, hx, rfl⟩
    simp only [insertWith, hs, Outcome.bind_ret, Outcome.ret_inj] at e
    rw [← e, hl]; rfl
  · have hl : lookup hist k = none := (h.none_iff k).2 hk
    simp only [insertWith, hs, Outcome.bind_ret] at e
    rw [if_pos hl]
    cases hm : linkLoop w.heap.brk ctx (fun b => if b = w.heap.brk then
        { key := k, value := v, next := fun _ => none, height := rh.1 } else w.heap.mem b) rh.1 with
    | ret m => rw [hm] at e; simp only [Outcome.bind_ret, Outcome.ret_inj] at e; rw [← e]
    | panic => rw [hm] at e; cases e
    | hang => rw [hm] at e; cases e

theorem set_seed {hist : List (Op K V)} {w w' : World K V} {nodes : List Addr} (r : Rep w nodes) (h : Abs hist w nodes) {k : K} {v : V}
    (e : Skl.set w k v = .ret w') :
    w'.skl.seed = if lookup hist k = none then (randHeight w.skl.seed).2 else w.skl.seed :=
  insertWith_seed (rh := randHeight w.skl.seed) r h e

theorem del_seed {w w' : World K V} {b : Bool} {k : K} (e : Skl.del w k = .ret (w', b)) : w'.skl.seed = w.skl.seed := by
  unfold Skl.del Skl.delete at e
  cases hs : search w k with
  | ret p =>
    obtain ⟨x, ctx⟩ := p
    rw [hs] at e
    cases x with
    | none => simp only [Outcome.bind_ret, Outcome.ret_inj, Prod.mk.injEq] at e; rw [← e.1]
    | some x =>
      simp only [Outcome.bind_ret] at e
      cases hu : unlinkLoop x ctx w.heap.mem (w.heap.mem x).height with
      | ret m => rw [hu] at e; simp only [Outcome.bind_ret, Outcome.ret_inj, Prod.mk.injEq] at e; rw [← e.1]
      | panic => rw [hu] at e; cases e
      | hang => rw [hu] at e; cases e
  | panic => rw [hs] at e; cases e
  | hang => rw [hs] at e; cases e

/-- **C07, in the map**: after every history the generator of a map that was given `n` new keys since it was created or cleared has
been stepped at least once and at most 15 times for each of them. With `C07_generator`: it repeats no state before 2^64 / 15 new keys. -/
theorem C07_draws (seed : BitVec 64) (hist : List (Op K V)) :
    ∃ w s n d, run (Skl.new seed) hist = .ret w ∧ Drawn seed hist s n ∧ w.skl.seed = stateAfter s d ∧ n ≤ d ∧ d ≤ 15 * n := by
  induction hist using List.reverseRecOn with
  | nil => exact ⟨_, seed, 0, 0, rfl, .nil, rfl, by omega, by omega⟩
  | append_singleton hist op ih =>
    obtain ⟨w, s, n, d, e, dr, hd, h1, h2⟩ := ih
    obtain ⟨w0, nodes, e0, r, h⟩ := run_rep seed hist
    obtain rfl : w0 = w := by rw [e] at e0; simpa using e0.symm
    rw [run_append, e]
    simp only [Outcome.bind_ret, run]
    cases op with
    | set k v =>
      obtain ⟨w', n', e', r', h', _⟩ := set_step r h k v
      have hs := set_seed r h e'
      by_cases hl : lookup hist k = none
      · rw [if_pos hl] at hs
        obtain ⟨c, c1, c2, c3⟩ := randHeightLoop_state (maxHeight - 1) w0.skl.seed (by decide)
        have c2 : c ≤ 15 := c2
        refine ⟨w', s, n + 1, d + c, by simp [step, e'], .new dr hl, ?_, by omega, by omega⟩
        rw [hs, randHeight, c3, hd, stateAfter_add]
      · rw [if_neg hl] at hs
        exact ⟨w', s, n, d, by simp [step, e'], .old dr hl, by rw [hs, hd], h1, h2⟩
    | del k =>
      obtain ⟨w', n', e', r', h', _⟩ := del_step r h k
      exact ⟨w', s, n, d, by simp [step, e'], .del dr, by rw [del_seed e', hd], h1, h2⟩
    | clear s' => exact ⟨Skl.clear w0 s', s', 0, 0, by simp [step], .clear dr, rfl, by omega, by omega⟩

/-- What the history says about the generator is unambiguous. -/
theorem C07_drawn_unique {seed : BitVec 64} {hist : List (Op K V)} {s s' : BitVec 64} {n n' : Nat}
    (h : Drawn seed hist s n) (h' : Drawn seed hist s' n') : s = s' ∧ n = n' := by
  induction h generalizing s' n' with
  | nil =>
    generalize hl : ([] : List (Op K V)) = l at h'
    cases h' with
    | nil => exact ⟨rfl, rfl⟩
    | _ => simp at hl
  | @new h s n k v _ hk ih =>
    generalize hl : h ++ [Op.set k v] = l at h'
    cases h' with
    | nil => simp at hl
    | new a b => obtain ⟨rfl, e⟩ := List.append_inj' hl rfl; obtain ⟨rfl, rfl⟩ := ih a; exact ⟨rfl, rfl⟩
    | old a b => obtain ⟨rfl, e⟩ := List.append_inj' hl rfl; simp at e; obtain ⟨rfl, _⟩ := e; exact absurd hk b
    | del a => obtain ⟨rfl, e⟩ := List.append_inj' hl rfl; simp at e
    | clear a => obtain ⟨rfl, e⟩ := List.append_inj' hl rfl; simp at e
  | @old h s n k v _ hk ih =>
    generalize hl : h ++ [Op.set k v] = l at h'
    cases h' with
    | nil => simp at hl
    | new a b => obtain ⟨rfl, e⟩ := List.append_inj' hl rfl; simp at e; obtain ⟨rfl, _⟩ := e; exact absurd b hk
    | old a b => obtain ⟨rfl, e⟩ := List.append_inj' hl rfl; exact ih a
    | del a => obtain ⟨rfl, e⟩ := List.append_inj' hl rfl; simp at e
    | clear a => obtain ⟨rfl, e⟩ := List.append_inj' hl rfl; simp at e
  | @del h s n k _ ih =>
    generalize hl : h ++ [Op.del k] = l at h'
    cases h' with
    | nil => simp at hl
    | new a b => obtain ⟨rfl, e⟩ := List.append_inj' hl rfl; simp at e
    | old a b => obtain ⟨rfl, e⟩ := List.append_inj' hl rfl; simp at e
    | del a => obtain ⟨rfl, e⟩ := List.append_inj' hl rfl; exact ih a
    | clear a => obtain ⟨rfl, e⟩ := List.append_inj' hl rfl; simp at e
  | @clear h s n c _ ih =>
    generalize hl : h ++ [Op.clear c] = l at h'
    cases h' with
    | nil => simp at hl
    | new a b => obtain ⟨rfl, e⟩ := List.append_inj' hl rfl; simp at e
    | old a b => obtain ⟨rfl, e⟩ := List.append_inj' hl rfl; simp at e
    | del a => obtain ⟨rfl, e⟩ := List.append_inj' hl rfl; simp at e
    | clear a => obtain ⟨rfl, e⟩ := List.append_inj' hl rfl; simp at e; exact ⟨e, rfl⟩

end

/-- Two keys, one of them set twice. -/
example : Drawn (K := Int) (V := Int) 7#64 [.set 1 1, .set 2 2, .set 1 3] 7#64 2 :=
  .old (h := [.set 1 1, .set 2 2]) (.new (h := [.set 1 1]) (.new (h := []) .nil rfl) (by decide)) (by decide)

end Verif.Skl
