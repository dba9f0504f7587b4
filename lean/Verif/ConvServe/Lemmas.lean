import Verif.ConvServe.Spec
import Verif.Conc.Later
/-!
# Lemmas for C177
-/
namespace Verif.ConvServe
open Verif.Go Verif.Conc Verif.ConvReg

variable {U : Univ} {work : Entry U → Value U → Nat} {h0 : List (Op U)}

theorem readsOnly : RW.ReadsOnly (registry work h0) := by
  intro s c i r s' hw hf
  cases c <;> simp [registry, fin] at hw hf <;> exact hf.2.2

theorem upto {m : Reg U} {c : Call U} {i : Nat} (h : Relation.ReflTransGen ((registry work h0).iter m c) 0 i) : i ≤ todo work m c := by
  induction h with
  | refl => exact Nat.zero_le _
  | tail _ h _ => obtain ⟨h1, rfl⟩ := h; exact h1

theorem live : RW.Live (registry work h0) := by
  intro m c i h
  rcases Nat.lt_or_ge i (todo work m c) with hi | hi
  · exact .inl ⟨_, hi, rfl⟩
  · have e : i = todo work m c := Nat.le_antisymm (upto h) hi
    refine .inr ?_
    cases c <;> exact ⟨_, _, e, rfl, rfl⟩

theorem shrinks : RW.ShrinksFrom (registry work h0) fun m c i => todo work m c - i := by
  rintro m c i j - ⟨h1, rfl⟩
  simp only
  omega

/-- The registry after a history over concrete types. -/
def Agree (m : Reg U) (h : List (Op U)) : Prop := m = run h ∧ ∀ o ∈ h, U.iface o.src = false ∧ U.iface o.dst = false

theorem converts {h : List (Op U)} (hc : ∀ o ∈ h, U.iface o.src = false ∧ U.iface o.dst = false) (v : U.Dyn) (R : CTy U) :
    Converts h v R (into (U.dyn v) R.1 (some v) (run h)) := by
  obtain ⟨c1, c2, c3, -⟩ := C62_latest_registration h hc (U.dyn v) R.1 (U.dyn_concrete v) R.2
  rcases c3 with ⟨f, hf⟩ | hn
  · obtain ⟨-, h2⟩ := c1 f hf
    cases f with
    | some g => exact .inl ⟨g, hf, ((h2 v rfl).1 g rfl).1⟩
    | none => exact .inr (.inl ⟨hf, (h2 v rfl).2 rfl⟩)
  · exact .inr (.inr ⟨hn, ((c2 hn).2 v rfl).1⟩)

theorem sim_step (m m' : Reg U) (c : Call U) (r : Res U) (h : List (Op U)) (ag : Agree m h) (st : (RW.seqObj (registry work h0)).step m c r m') :
    ∃ h', regStep h c r h' ∧ Agree m' h' := by
  obtain ⟨i, -, -, st⟩ := st
  obtain ⟨rfl, hc⟩ := ag
  cases c with
  | register T R f =>
    obtain ⟨rfl, rfl⟩ := st
    refine ⟨_, ⟨rfl, rfl⟩, (run_snoc h (.reg T.1 R.1 f)).symm, fun o ho => ?_⟩
    rcases List.mem_append.1 ho with ho | ho
    · exact hc o ho
    · rw [List.mem_singleton.1 ho]; exact ⟨T.2, R.2⟩
  | unregister T R =>
    obtain ⟨rfl, rfl⟩ := st
    refine ⟨_, ⟨rfl, rfl⟩, (run_snoc h (.unreg T.1 R.1)).symm, fun o ho => ?_⟩
    rcases List.mem_append.1 ho with ho | ho
    · exact hc o ho
    · rw [List.mem_singleton.1 ho]; exact ⟨T.2, R.2⟩
  | found T R =>
    obtain ⟨rfl, rfl⟩ := st
    refine ⟨h, ⟨⟨_, rfl, ?_⟩, rfl⟩, rfl, hc⟩
    obtain ⟨c1, c2, c3, -⟩ := C62_latest_registration h hc T.1 R.1 T.2 R.2
    constructor
    · intro hb
      rcases c3 with hf | hn
      · exact hf
      · rw [(c2 hn).1] at hb; cases hb
    · rintro ⟨f, hf⟩; exact (c1 f hf).1
  | into v R =>
    obtain ⟨rfl, rfl⟩ := st
    exact ⟨h, ⟨⟨_, converts hc v R, rfl⟩, rfl⟩, rfl, hc⟩
  | intoOr v R or =>
    obtain ⟨rfl, rfl⟩ := st
    refine ⟨h, ⟨⟨_, converts hc v R, ?_⟩, rfl⟩, rfl, hc⟩
    rw [intoOr]
    cases into (U.dyn v) R.1 (some v) (run h) with
    | ret y => obtain ⟨y, b⟩ := y; cases b <;> rfl
    | panic => rfl
    | hang => rfl

theorem latest_snoc {h : List (Op U)} {T R : U.Ty} {f : Option (Value U → Value U)} (hl : Latest h T R f) {o : Op U} (ho : ¬ (o.src = T ∧ o.dst = R)) :
    Latest (h ++ [o]) T R f := by
  obtain ⟨h1, h2, rfl, hn⟩ := hl
  refine ⟨h1, h2 ++ [o], by simp, fun o' ho' => ?_⟩
  rcases List.mem_append.1 ho' with g | g
  · exact hn o' g
  · rw [List.mem_singleton.1 g]; exact ho

/-- After a registration, when nobody takes it away, there is one. -/
theorem there {T R : CTy U} {P : (Value U → Value U) → Prop} {S : List (Nat × Call U × Res U)} {h : List (Op U)} (hl : Legal (regObj h0) S h)
    (hu : ∀ y ∈ S, y.2.1 ≠ .unregister T R) (hr : ∀ y ∈ S, ∀ f, y.2.1 = .register T R f → ∃ g, f = some g ∧ P g) (hs : ∃ y ∈ S, ∃ f, y.2.1 = .register T R f) :
    ∃ g, Latest h T.1 R.1 (some g) ∧ P g := by
  induction hl with
  | nil => obtain ⟨y, h, -⟩ := hs; cases h
  | @snoc S h h' id c r hl st ih =>
    have last : (id, c, r) ∈ S ++ [(id, c, r)] := by simp
    have before : (∀ f, c ≠ .register T R f) → ∃ g, Latest h T.1 R.1 (some g) ∧ P g := by
      intro hn
      refine ih (fun y hy => hu y (List.mem_append_left _ hy)) (fun y hy => hr y (List.mem_append_left _ hy)) ?_
      obtain ⟨y, hy, f, h1⟩ := hs
      rcases List.mem_append.1 hy with hy | hy
      · exact ⟨y, hy, f, h1⟩
      · rw [List.mem_singleton] at hy
        subst hy
        exact absurd h1 (hn f)
    cases c with
    | register T' R' f =>
      obtain ⟨-, rfl⟩ := st
      by_cases e : T' = T ∧ R' = R
      · obtain ⟨rfl, rfl⟩ := e
        obtain ⟨g, rfl, hP⟩ := hr _ last f rfl
        exact ⟨g, ⟨h, [], rfl, nofun⟩, hP⟩
      · obtain ⟨g, hg, hP⟩ := before (fun f' h => by cases h; exact e ⟨rfl, rfl⟩)
        exact ⟨g, latest_snoc hg fun ⟨h1, h2⟩ => e ⟨Subtype.ext h1, Subtype.ext h2⟩, hP⟩
    | unregister T' R' =>
      obtain ⟨-, rfl⟩ := st
      obtain ⟨g, hg, hP⟩ := before (fun f' h => by cases h)
      exact ⟨g, latest_snoc hg fun ⟨h1, h2⟩ => hu _ last (by rw [Subtype.ext h1, Subtype.ext h2]), hP⟩
    | found => obtain ⟨-, rfl⟩ := st; exact before (fun f' h => by cases h)
    | into => obtain ⟨-, rfl⟩ := st; exact before (fun f' h => by cases h)
    | intoOr => obtain ⟨-, rfl⟩ := st; exact before (fun f' h => by cases h)

/-- There is at most one last registration. -/
theorem latest_unique {h : List (Op U)} {T R : CTy U} (hc : ∀ o ∈ h, U.iface o.src = false ∧ U.iface o.dst = false) {f f' : Option (Value U → Value U)}
    (h1 : Latest h T.1 R.1 f) (h2 : Latest h T.1 R.1 f') : f = f' := by
  have := look_latest hc h1
  rw [look_latest hc h2] at this
  cases this
  rfl

/-- All that is registered is over concrete types. -/
theorem concrete (hc0 : ∀ o ∈ h0, U.iface o.src = false ∧ U.iface o.dst = false) {S : List (Nat × Call U × Res U)} {h : List (Op U)} (hl : Legal (regObj h0) S h) :
    ∀ o ∈ h, U.iface o.src = false ∧ U.iface o.dst = false := by
  induction hl with
  | nil => exact hc0
  | @snoc S h h' id c r hl st ih =>
    cases c with
    | register T R f =>
      obtain ⟨-, rfl⟩ := st
      intro o ho
      rcases List.mem_append.1 ho with ho | ho
      · exact ih o ho
      · rw [List.mem_singleton.1 ho]; exact ⟨T.2, R.2⟩
    | unregister T R =>
      obtain ⟨-, rfl⟩ := st
      intro o ho
      rcases List.mem_append.1 ho with ho | ho
      · exact ih o ho
      · rw [List.mem_singleton.1 ho]; exact ⟨T.2, R.2⟩
    | found => obtain ⟨-, rfl⟩ := st; exact ih
    | into => obtain ⟨-, rfl⟩ := st; exact ih
    | intoOr => obtain ⟨-, rfl⟩ := st; exact ih

end Verif.ConvServe
