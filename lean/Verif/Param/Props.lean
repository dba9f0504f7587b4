import Verif.Param.Model
/-!
# Property C55: options are applied left to right
-/
namespace Verif.Param

/-- A call: of the option with that index, or of the constructor, with its argument. -/
inductive Call (T : Type) where
  | option (i : Nat) (arg : Option T)
  | constructor (arg : Option T)

variable {T R : Type}

/-- Pure options that log their calls. -/
def logged (fs : List (Option T → Option T)) (i : Nat) : List (List (Call T) → Option T → Option T × List (Call T)) :=
  match fs with
  | [] => []
  | f :: fs => (fun log p => (f p, log ++ [.option i p])) :: logged fs (i + 1)

/-- The values passed on: `vs[0]` to the first option, `vs[i+1]` is what option `i` gives for `vs[i]`. -/
structure Chain (fs : List (Option T → Option T)) (vs : List (Option T)) : Prop where
  len : vs.length = fs.length + 1
  step : ∀ i (h : i < fs.length), vs[i + 1]'(by omega) = fs[i] (vs[i]'(by omega))

theorem loop_logged (fs : List (Option T → Option T)) : ∀ (i : Nat) (log : List (Call T)) (p : Option T),
    ∃ vs : List (Option T), ∃ h : vs.length = fs.length + 1, Chain fs vs ∧ vs[0] = p ∧
      loop (logged fs i) log p = (vs[fs.length], log ++ vs.dropLast.mapIdx (fun n v => .option (i + n) v)) := by
  induction fs with
  | nil => intro i log p; exact ⟨[p], rfl, ⟨rfl, fun i h => by cases h⟩, rfl, by simp [loop, logged]⟩
  | cons f fs ih =>
    intro i log p
    obtain ⟨vs, h, c, h0, e⟩ := ih (i + 1) (log ++ [.option i p]) (f p)
    refine ⟨p :: vs, by simp [h], ⟨by simp [h], fun n hn => ?_⟩, rfl, ?_⟩
    · cases n with
      | zero => simpa using h0
      | succ n => simpa using c.step n (by simpa using hn)
    · simp only [loop, logged, e, List.length_cons, List.getElem_cons_succ, Prod.mk.injEq, true_and]
      obtain ⟨v, vs, rfl⟩ : ∃ v vs', vs = v :: vs' := by cases vs with | nil => simp at h | cons v vs => exact ⟨v, vs, rfl⟩
      simp only [List.dropLast_cons_cons, List.mapIdx_cons, List.append_assoc, List.singleton_append, Nat.add_zero]
      congr 2
      congr 1
      funext n v
      congr 1
      omega

/-- **C55** Every option is called exactly once, in order, the first with nil, each next one with what
the one before gave, and the constructor is called last, once, with what the last one gave; its result is
the result. -/
theorem C55_left_to_right (fs : List (Option T → Option T)) (con : Option T → Option R) :
    ∃ vs : List (Option T), ∃ h : vs.length = fs.length + 1, Chain fs vs ∧ vs[0] = none ∧
      parameter (fun log p => (con p, log ++ [.constructor p])) (logged fs 0) []
        = (con vs[fs.length], vs.dropLast.mapIdx (fun n v => Call.option n v) ++ [.constructor vs[fs.length]]) := by
  obtain ⟨vs, h, c, h0, e⟩ := loop_logged fs 0 [] none
  refine ⟨vs, h, c, h0, ?_⟩
  simp [parameter, e]

/-- **C55** With effects: options one after another are one option after the other. -/
theorem C55_compose {W : Type} (con : W → Option T → Option R × W) (fs : List (W → Option T → Option T × W))
    (f : W → Option T → Option T × W) (w : W) :
    parameter con (fs ++ [f]) w = (let (p, w) := loop fs w none; let (p, w) := f w p; con w p) := by
  have : ∀ (fs : List (W → Option T → Option T × W)) w p, loop (fs ++ [f]) w p = f (loop fs w p).2 (loop fs w p).1 := by
    intro fs
    induction fs with
    | nil => intro w p; simp [loop]
    | cons g fs ih => intro w p; simp [loop, ih]
  simp [parameter, this]

/-- Non-vacuity: two options that set and double. -/
example : (parameter (W := List (Call Nat)) (fun log p => (p, log ++ [.constructor p])) (logged [fun _ => some 3, fun p => p.map (2 * ·)] 0) [])
    = (some 6, [.option 0 none, .option 1 (some 3), .constructor (some 6)]) := by
  simp [parameter, loop, logged]

end Verif.Param
