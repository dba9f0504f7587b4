import Verif.CloseFind.Lemmas
/-!
# C133: finding a closer's failure in the error that Close returns
-/
namespace Verif.CloseFind
open Verif.ClosePanic

variable {W P : Type}

/-- The full statement of C133: after any history, when no closer panics, `errors.Is` on the result of `Close` finds a
target exactly when one of the closers failed with it, and `AsErrs` finds the failures wherever the result is wrapped
or joined. -/
def C133_full : Prop := ∀ (ops : List (Op Unit Unit Err)) (w0 w : Unit), let m := (run ops ClosePanic.new w0).2.1
  NonePanics (appended ops) w → ∀ errs, (m.close w).1 = .ret errs →
    (∀ t, isErr t (.list errs) = true ↔ ∃ e ∈ errorsOf (appended ops) w, Finds t e) ∧
    ∀ c : Ctx, asErrs (some (c.plug (.list errs))) = some (errorsOf (appended ops) w)

/-- **C133, what does hold**: the list is found wherever the result is wrapped or joined with no other error list to
its left, and `errors.Is` on its elements, one by one, finds exactly what the closers failed with. Missing: `errors.Is`
on the result itself, and results joined behind another one. -/
theorem C133_partial (ops : List (Op W P Err)) (w0 w : W) (hn : NonePanics (appended ops) w) (c : Ctx) (hc : c.First) :
    ∃ errs es, ((run ops ClosePanic.new w0).2.1.close w).1 = .ret errs ∧ asErrs (some (c.plug (.list errs))) = some es ∧
      ∀ t, (∃ e ∈ es, isErr t e = true) ↔ ∃ e ∈ errorsOf (appended ops) w, Finds t e := by
  have h := (C94_close_partial ops w0 w).1 hn
  refine ⟨errorsOf (appended ops) w, errorsOf (appended ops) w, h.1, asList_plug c hc _, fun t => ?_⟩
  simp only [isErr_iff]

/-- `AsErrs` finds the first error list, and nothing else; it finds none when there is none. -/
theorem C133_first (e : Err) (es : List Err) :
    (asErrs (some e) = some es ↔ ∃ c : Ctx, c.First ∧ c.plug (.list es) = e) ∧
    (asErrs (some e) = none ↔ ∀ es, ¬ Sub e (.list es)) :=
  ⟨⟨asList_some es e, fun ⟨c, hc, h⟩ => h ▸ asList_plug c hc es⟩, asList_none e⟩

/-- **C133 is false**: `errors.Is` finds nothing in the result of any `Close`, and what it finds around one does not
depend on the failures; of two results that are joined `AsErrs` finds only the first one, even if it is empty; and
comparing two results panics. -/
theorem C133_refuted : ¬ C133_full ∧ (∀ t errs, isErr t (.list errs) = false) ∧
    (∀ t (c : Ctx) errs, isErr t (c.plug (.list errs)) = isErr t (c.plug (.list []))) ∧
    (∀ id m errs errs', asErrs (some (.node id m [.list errs, .list errs'])) = some errs) ∧
    ∀ errs errs', goEq (.list errs) (.list errs') = .panic := by
  refine ⟨fun h => ?_, fun _ _ => rfl, fun t c errs => isErr_plug t c _ _, fun _ _ _ _ => rfl, fun _ _ => rfl⟩
  have h1 := h [.append fun w => (.ok (some (.node 1 (fun _ => false) [])), w)] () ()
    ⟨⟨_, rfl⟩, trivial⟩ [.node 1 (fun _ => false) []] rfl
  have h2 := (h1.1 1).2 ⟨_, List.mem_singleton.2 rfl, 1, _, _, .refl _, .inl rfl⟩
  simp [isErr] at h2

/-- **C133, comparing with `==`**: comparing the result of `Close` with another error panics if that is an error list too, and is false
otherwise; two other errors are equal exactly if they are the same. -/
theorem C133_compare (a b : Err) :
    (goEq a b = .panic ↔ (∃ es, a = .list es) ∧ ∃ es, b = .list es) ∧
    (goEq a b = .ret true ↔ ∃ i m k m' k', a = .node i m k ∧ b = .node i m' k') ∧ goEq a b ≠ .hang := by
  cases a with
  | list es => cases b with
    | list es' => simp [goEq]
    | node j m' k' => simp [goEq]
  | node i m k => cases b with
    | list es' => simp [goEq]
    | node j m' k' =>
      simp [goEq]
      exact eq_comm

/-- A failure that wraps another one, found through a wrapped result. -/
example : asErrs (some (.node 5 (fun _ => false) [.node 6 (fun _ => false) [], .list [.node 1 (fun t => t == 9) [.node 2 (fun _ => false) []]]])) =
      some [.node 1 (fun t => t == 9) [.node 2 (fun _ => false) []]] ∧
    isErr 2 (.node 1 (fun t => t == 9) [.node 2 (fun _ => false) []]) = true ∧
    isErr 9 (.node 1 (fun t => t == 9) [.node 2 (fun _ => false) []]) = true ∧
    isErr 3 (.node 1 (fun t => t == 9) [.node 2 (fun _ => false) []]) = false ∧
    (Ctx.under 5 (fun _ => false) [.node 6 (fun _ => false) []] .here []).First := by
  refine ⟨rfl, rfl, rfl, rfl, ?_, trivial⟩
  intro l hl es h
  obtain rfl : l = .node 6 (fun _ => false) [] := by simpa using hl
  cases h with
  | step hk _ => cases hk

end Verif.CloseFind
