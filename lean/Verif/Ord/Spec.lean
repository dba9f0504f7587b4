import Verif.Skl.Spec
/-!
# Specification of an early-stopping visit
-/
namespace Verif.MapSpec

/-- Visit the entries in order with a callback acting on `σ`; stop right after the first callback
that says stop. -/
def visit {σ K V : Type} (f : σ → K → V → σ × Bool) : σ → List (K × V) → σ
  | s, [] => s
  | s, (k, v) :: l => if (f s k v).2 then (f s k v).1 else visit f (f s k v).1 l

/-- With a callback that records its calls and stops on `p`, the visited entries are those before
the first hit, and the hit. -/
theorem visit_record {K V : Type} (p : K → V → Bool) (acc l : List (K × V)) :
    visit (fun s k v => (s ++ [(k, v)], p k v)) acc l =
      acc ++ l.takeWhile (fun e => !p e.1 e.2) ++ (l.dropWhile (fun e => !p e.1 e.2)).take 1 := by
  induction l generalizing acc with
  | nil => simp [visit]
  | cons e l ih =>
    obtain ⟨k, v⟩ := e
    by_cases h : p k v <;> simp [visit, h, ih]

end Verif.MapSpec
