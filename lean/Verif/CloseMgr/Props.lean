import Verif.CloseMgr.Model
/-!
# Properties C60, C61: the close manager
-/
namespace Verif.CloseMgr

variable {W : Type}

/-- Specification: the closers registered by a history. -/
def registered (ops : List (Op W)) : List (W → Option Err × W) :=
  ops.filterMap (fun | .append c => some c | .close => none)

/-- Specification: call closers one after the other. -/
def runAll (cs : List (W → Option Err × W)) (w : W) : List (Option Err) × W :=
  match cs with
  | [] => ([], w)
  | c :: cs => ((c w).1 :: (runAll cs (c w).2).1, (runAll cs (c w).2).2)

theorem closeLoop_eq (cs : List (W → Option Err × W)) : ∀ (errs : List Err) (w : W),
    closeLoop cs errs w = (errs ++ (runAll cs w).1.filterMap id, (runAll cs w).2) := by
  induction cs with
  | nil => intro errs w; simp [closeLoop, runAll]
  | cons c cs ih =>
    intro errs w
    cases h : c w with
    | mk r w' => cases r <;> simp [closeLoop, runAll, h, ih]

theorem run_list (ops : List (Op W)) : ∀ (m : Mgr W) (w : W) (rs : List (Option Err)),
    (run ops m w rs).1.list = m.list ++ registered ops := by
  induction ops with
  | nil => intro m w rs; simp [run, registered]
  | cons o ops ih =>
    intro m w rs
    cases o with
    | append c => simp only [run, ih, Mgr.append, registered]; simp
    | close => simp only [run, ih, registered]; simp

/-- **C60** After any history, `Close` calls every closer registered so far exactly once, in the order of
registration, also when some fail or have been closed before; `AsErrs` of its result is the list of their
errors, in order. -/
theorem C60_close (ops : List (Op W)) (w0 w : W) (rs : List (Option Err)) :
    let m := (run ops new w0 rs).1
    let r := m.close w
    r.2 = (runAll (registered ops) w).2 ∧ asErrs r.1 = some ((runAll (registered ops) w).1.filterMap id) := by
  intro m r
  have hm : m.list = registered ops := by simp only [m, run_list, new, List.nil_append]
  simp only [r, Mgr.close, hm, closeLoop_eq, List.nil_append, asErrs, asList, and_self]

/-- Closers numbered from `n` that log their calls. -/
def numbered (es : List (Option Err)) (n : Nat) : List (List Nat → Option Err × List Nat) :=
  match es with
  | [] => []
  | e :: es => (fun log => (e, log ++ [n])) :: numbered es (n + 1)

theorem runAll_numbered (es : List (Option Err)) : ∀ (n : Nat) (log : List Nat),
    runAll (numbered es n) log = (es, log ++ List.range' n es.length) := by
  induction es with
  | nil => intro n log; simp [numbered, runAll]
  | cons e es ih => intro n log; simp [numbered, runAll, ih, List.range'_succ]

theorem registered_append (cs : List (W → Option Err × W)) : registered (cs.map Op.append) = cs := by
  induction cs with
  | nil => rfl
  | cons c cs ih => simp only [registered, List.map_cons, List.filterMap_cons] at ih ⊢; rw [ih]

/-- **C60** in terms of calls: n closers are called 0, 1, .., n-1, whatever they return. -/
theorem C60_order (es : List (Option Err)) (rs : List (Option Err)) :
    (((run ((numbered es 0).map Op.append) new [] rs).1).close []).2 = List.range es.length := by
  rw [(C60_close ((numbered es 0).map Op.append) [] [] rs).1, registered_append, runAll_numbered, List.range_eq_range']
  rfl

/-- Non-vacuity: three closers of which the second fails, closed twice. -/
example : (run (((numbered [none, some (.plain 5), none] 0).map Op.append) ++ [.close, .close]) new [] []).2
    = ([0, 1, 2, 0, 1, 2], [some (.list [.plain 5]), some (.list [.plain 5])]) := rfl

/-- The full statement of C61. -/
def C61_full : Prop := ∀ (m : Mgr Unit), (m.close ()).1 = none ↔ (runAll m.list ()).1.filterMap id = []

/-- **C61** refuted: `Close` never returns nil, since an `ErrorList` in an `error` is not nil. -/
theorem C61_refuted : (∀ (m : Mgr W) (w : W), (m.close w).1 ≠ none) ∧ ¬ C61_full :=
  ⟨fun m w => by simp [Mgr.close], fun h => by
    have := (h new).2 rfl
    simp [Mgr.close] at this⟩

/-- **C61** (partial) What holds instead: the error list is empty exactly when no closer failed. Missing:
nil. -/
theorem C61_empty_partial (m : Mgr W) (w : W) :
    asErrs (m.close w).1 = some [] ↔ ∀ e ∈ (runAll m.list w).1, e = none := by
  simp only [Mgr.close, closeLoop_eq, List.nil_append, asErrs, asList, Option.some.injEq, List.filterMap_eq_nil_iff, id]

/-- Non-vacuity: closers without failure. -/
example : asErrs ((new.append (fun w : Unit => (none, w))).close ()).1 = some [] := rfl

/-- An error wrapped any number of times. -/
def wraps (ids : List Nat) (e : Err) : Err := ids.foldr .wrap e

/-- **C61**, reading the result: `AsErrs` finds the list of failures in the result of `Close`, however often the
caller has wrapped it on the way, and finds none in errors that are no such list. -/
theorem C61_wrapped (m : Mgr W) (w : W) (ids : List Nat) : ∃ e, (m.close w).1 = some e ∧
    asErrs (some (wraps ids e)) = some ((runAll m.list w).1.filterMap id) ∧ ∀ n, asErrs (some (wraps ids (.plain n))) = none := by
  have key : ∀ e, asErrs (some (wraps ids e)) = asErrs (some e) := by
    intro e
    induction ids with
    | nil => rfl
    | cons i ids ih => exact ih
  refine ⟨_, rfl, ?_, fun n => by rw [key]; rfl⟩
  rw [key]
  simp only [closeLoop_eq, List.nil_append, asErrs, asList]

example : asErrs (some (wraps [1, 2] (.list [.plain 5]))) = some [.plain 5] := rfl

end Verif.CloseMgr
