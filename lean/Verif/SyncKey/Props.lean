import Verif.SyncKey.Lemmas
import Verif.SyncAny.Props
/-!
# C106: the concurrent map with any key type
-/
namespace Verif.SyncKey
open Verif.Conc Verif.SyncMap Verif.SyncAny Verif.Go

variable {K V : Type} {eq : K → K → Bool} [Inhabited V]

/-- **C106.** In every schedule the history is linearizable, for every key type with symmetric and transitive `==`. -/
theorem C106_linearizable (pe : PartialEq eq) {s : St K V} (h : RW.Reach (syncmap eq) s) :
    Linearizable (histObj eq) s.hist := by
  refine RW.sim (fun m hist => m = run eq hist) rfl ?_ (RW.linearizable readsOnly h)
  rintro m m' c r hist rfl hs
  obtain ⟨h', h1, h2⟩ := sim_step pe hist c r m' hs
  exact ⟨h', h1, h2⟩

/-- The calls that modify the map. -/
def Modifies : Call K V → Prop
  | .set _ _ => True
  | .delete _ => True
  | .clear => True
  | _ => False

/-- No goroutine accesses the map while another modifies it, whatever `==` is. -/
theorem C106_no_race {s : St K V} (h : RW.Reach (syncmap eq) s) {t t' : Nat} {c c' : Call K V}
    (ht : RW.Accessing s t c) (ht' : RW.Accessing s t' c') (hw : Modifies c) : t' = t :=
  RW.no_race readsOnly h ht ht' (by cases c <;> simp_all [Modifies, syncmap, mode])

/-- Without new calls every execution is finite; one that cannot go on has all calls returned; and from every state such
an end is reached. -/
theorem C106_all_return {s : St K V} (h : RW.Reach (syncmap eq) s) :
    (¬ ∃ f : Nat → St K V, f 0 = s ∧ ∀ n, RW.Step (syncmap eq) (f n) (f (n + 1)) ∧ (f (n + 1)).next = (f n).next) ∧
    ((¬ ∃ s', RW.Step (syncmap eq) s s' ∧ s'.next = s.next) → ∀ t, s.pc t = .idle) ∧
    ∃ s', Relation.ReflTransGen (fun a b : St K V => RW.Step (syncmap eq) a b ∧ b.next = a.next) s s' ∧ ∀ t, s'.pc t = .idle :=
  ⟨RW.ends shrinks h, RW.all_return readsOnly live shrinks h⟩

/-- Two goroutines store under NaN, a third lists the keys while the second waits; NaN is listed once, then twice. -/
example : ∃ s : St FloatKey Int, RW.Reach (syncmap floatEq) s ∧
    s.hist = [.inv 0 (.set .nan 1), .ret 0 .unit, .inv 1 (.set .nan 2), .inv 2 .keys, .ret 2 (.keys [.nan]), .ret 1 .unit,
      .inv 3 .keys, .ret 3 (.keys [.nan, .nan]), .inv 4 (.has .nan), .ret 4 (.bool false)] := by
  have h1 := RW.Reach.init.step (RW.Step.invoke (g := syncmap (V := Int) floatEq) (s := RW.start _) (t := 0) (c := .set .nan 1) rfl)
  have h2 := h1.step (.lock (t := 0) (id := 0) (c := .set .nan 1) rfl rfl rfl rfl)
  have h3 := h2.step (.access (t := 0) (id := 0) (c := .set .nan 1) (acc := []) (r := .unit) (m' := [(.nan, 1)]) rfl (by exact ⟨rfl, rfl⟩))
  have h4 := h3.step (.unlock (t := 0) (id := 0) (c := .set .nan 1) (r := .unit) rfl rfl)
  have h5 := h4.step (.ret (t := 0) (id := 0) (c := .set .nan 1) (r := .unit) rfl)
  have h6 := h5.step (.invoke (t := 1) (c := .set .nan 2) rfl)
  have h7 := h6.step (.invoke (t := 2) (c := .keys) rfl)
  have h8 := h7.step (.rlock (t := 2) (id := 2) (c := .keys) rfl rfl rfl)
  have h9 := h8.step (.iter (t := 2) (id := 2) (c := .keys) (acc := []) (acc' := [(.nan, 1)]) rfl
    (by exact ⟨.inl rfl, _, rfl, (List.Perm.refl _).subperm⟩))
  have h10 := h9.step (.access (t := 2) (id := 2) (c := .keys) (acc := [(.nan, 1)]) (r := .keys [.nan])
    (m' := [(.nan, 1)]) rfl (by exact ⟨.refl _, rfl, rfl⟩))
  have h11 := h10.step (.runlock (t := 2) (id := 2) (c := .keys) (r := .keys [.nan]) rfl rfl)
  have h12 := h11.step (.ret (t := 2) (id := 2) (c := .keys) (r := .keys [.nan]) rfl)
  have h13 := h12.step (.lock (t := 1) (id := 1) (c := .set .nan 2) rfl rfl rfl rfl)
  have h14 := h13.step (.access (t := 1) (id := 1) (c := .set .nan 2) (acc := []) (r := .unit) (m' := [(.nan, 2), (.nan, 1)]) rfl (by exact ⟨rfl, rfl⟩))
  have h15 := h14.step (.unlock (t := 1) (id := 1) (c := .set .nan 2) (r := .unit) rfl rfl)
  have h16 := h15.step (.ret (t := 1) (id := 1) (c := .set .nan 2) (r := .unit) rfl)
  have h17 := h16.step (.invoke (t := 2) (c := .keys) rfl)
  have h18 := h17.step (.rlock (t := 2) (id := 3) (c := .keys) rfl rfl rfl)
  have h19 := h18.step (.iter (t := 2) (id := 3) (c := .keys) (acc := []) (acc' := [(.nan, 1)]) rfl
    (by exact ⟨.inl rfl, _, rfl, ((List.Sublist.cons (FloatKey.nan, (2 : Int)) (List.Sublist.refl [(FloatKey.nan, (1 : Int))])).subperm)⟩))
  have h20 := h19.step (.iter (t := 2) (id := 3) (c := .keys) (acc := [(.nan, 1)]) (acc' := [(.nan, 1), (.nan, 2)]) rfl
    (by exact ⟨.inl rfl, _, rfl, (List.Perm.swap ..).subperm⟩))
  have h21 := h20.step (.access (t := 2) (id := 3) (c := .keys) (acc := [(.nan, 1), (.nan, 2)]) (r := .keys [.nan, .nan])
    (m' := [(.nan, 2), (.nan, 1)]) rfl (by exact ⟨List.Perm.swap .., rfl, rfl⟩))
  have h22 := h21.step (.runlock (t := 2) (id := 3) (c := .keys) (r := .keys [.nan, .nan]) rfl rfl)
  have h23 := h22.step (.ret (t := 2) (id := 3) (c := .keys) (r := .keys [.nan, .nan]) rfl)
  have h24 := h23.step (.invoke (t := 0) (c := .has .nan) rfl)
  have h25 := h24.step (.rlock (t := 0) (id := 4) (c := .has .nan) rfl rfl rfl)
  have h26 := h25.step (.access (t := 0) (id := 4) (c := .has .nan) (acc := []) (r := .bool false) (m' := [(.nan, 2), (.nan, 1)]) rfl (by exact ⟨rfl, rfl⟩))
  have h27 := h26.step (.runlock (t := 0) (id := 4) (c := .has .nan) (r := .bool false) rfl rfl)
  have h28 := h27.step (.ret (t := 0) (id := 4) (c := .has .nan) (r := .bool false) rfl)
  exact ⟨_, h28, rfl⟩

/-- Readers do overlap. -/
example : ∃ s : St FloatKey Int, RW.Reach (syncmap floatEq) s ∧ RW.Accessing s 0 .keys ∧ RW.Accessing s 1 (.get .nan) := by
  have h1 := RW.Reach.init.step (RW.Step.invoke (g := syncmap (V := Int) floatEq) (s := RW.start _) (t := 0) (c := .keys) rfl)
  have h2 := h1.step (.invoke (t := 1) (c := .get .nan) rfl)
  have h3 := h2.step (.rlock (t := 0) (id := 0) (c := .keys) rfl rfl rfl)
  have h4 := h3.step (.rlock (t := 1) (id := 1) (c := .get .nan) rfl rfl rfl)
  exact ⟨_, h4, ⟨0, [], rfl⟩, ⟨1, [], rfl⟩⟩

end Verif.SyncKey
