import Verif.Using.Model
/-!
# Property C56: `usingx.Close`
-/
namespace Verif.Using

variable {W E P : Type}

/-- Specification: run the closers one after the other. -/
def runAll (cs : List (W → Option E × W)) (w : W) : List (Option E) × W :=
  match cs with
  | [] => ([], w)
  | c :: cs => ((c w).1 :: (runAll cs (c w).2).1, (runAll cs (c w).2).2)

/-- A closer that does not panic. -/
def total (c : W → Option E × W) : Eff W P (Option E) := fun w => (.ok (c w).1, (c w).2)

theorem closeLoop_total (cs : List (W → Option E × W)) : ∀ (errs : List E) (w : W),
    closeLoop (P := P) (cs.map total) errs w = (.ok (errs ++ (runAll cs w).1.filterMap id), (runAll cs w).2) := by
  induction cs with
  | nil => intro errs w; simp [closeLoop, runAll]
  | cons c cs ih =>
    intro errs w
    cases h : (c w).1 with
    | none => simp [closeLoop, total, runAll, h, ih]
    | some e => simp [closeLoop, total, runAll, h, ih]

/-- **C56** The body runs first, then every closer, once, in order, whether or not the body panics. -/
theorem C56_closes_all (cs : List (W → Option E × W)) (f : Eff W P Unit) (w : W) :
    (close (cs.map total) f w).2 = (runAll cs (f w).2).2 := by
  simp only [close]
  cases h : f w with
  | mk r w' =>
    simp only [closeLoop_total]
    cases r <;> rfl

/-- **C56** If the body returns, the result is the list of the errors in order, nil if there are none. -/
theorem C56_errors (cs : List (W → Option E × W)) (f : Eff W P Unit) (w : W) (h : (f w).1 = .ok ()) :
    (close (cs.map total) f w).1 = .ok (match (runAll cs (f w).2).1.filterMap id with | [] => none | es => some es) := by
  simp only [close]
  cases hf : f w with
  | mk r w' =>
    rw [hf] at h
    simp only at h
    subst h
    simp only [closeLoop_total, List.nil_append]
    cases (runAll cs w').1.filterMap id <;> simp

/-- **C56** If the body panics, the panic goes on. -/
theorem C56_panics (cs : List (W → Option E × W)) (f : Eff W P Unit) (w : W) {p : P} (h : (f w).1 = .error p) :
    (close (cs.map total) f w).1 = .error p := by
  simp only [close]
  cases hf : f w with
  | mk r w' =>
    rw [hf] at h
    simp only at h
    subst h
    simp only [closeLoop_total]

/-- The call log of closers numbered from `n` with the given results. -/
def numbered (es : List (Option E)) (n : Nat) : List (List Nat → Option E × List Nat) :=
  match es with
  | [] => []
  | e :: es => (fun log => (e, log ++ [n])) :: numbered es (n + 1)

theorem runAll_numbered (es : List (Option E)) : ∀ (n : Nat) (log : List Nat),
    runAll (numbered es n) log = (es, log ++ List.range' n es.length) := by
  induction es with
  | nil => intro n log; simp [numbered, runAll]
  | cons e es ih => intro n log; simp [numbered, runAll, ih, List.range'_succ]

/-- **C56** in terms of calls: the body (0) and then closers 1 to n, each once. -/
theorem C56_order (es : List (Option E)) (r : Except P Unit) :
    (close ((numbered es 1).map total) (fun log => (r, log ++ [0])) []).2 = List.range (es.length + 1) := by
  rw [C56_closes_all, runAll_numbered]
  rw [List.range_eq_range', List.range'_succ]
  rfl

/-- Beyond C56: a closer that panics keeps the closers after it from being closed. -/
theorem close_panicking_closer : ∃ (cs : List (Eff (List Nat) String (Option Unit))),
    cs.length = 2 ∧ (close cs (fun log => (.ok (), log)) []).2 = [1] :=
  ⟨[fun log => (.error "boom", log ++ [1]), fun log => (.ok none, log ++ [2])], rfl, rfl⟩

/-- Non-vacuity: a panicking body, and two closers of which the first fails. -/
example : close (P := String) ((numbered [some 7, none] 1).map total) (fun log => (.error "p", log ++ [0])) []
    = (.error "p", [0, 1, 2]) := rfl
example : close (P := String) ((numbered [some 7, none] 1).map total) (fun log => (.ok (), log ++ [0])) []
    = (.ok (some [7]), [0, 1, 2]) := rfl

end Verif.Using
