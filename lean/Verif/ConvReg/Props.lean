import Verif.ConvReg.Model
/-!
# Conversion registry: properties C62, C63
-/
namespace Verif.ConvReg

variable {U : Univ}

/-! ## Specification -/

def Op.src : Op U → U.Ty
  | .reg T _ _ => T
  | .unreg T _ => T

def Op.dst : Op U → U.Ty
  | .reg _ R _ => R
  | .unreg _ R => R

/-- `f` is the converter given in the last call for `(T, R)` in the history, which is a `Register`. -/
def Latest (h : List (Op U)) (T R : U.Ty) (f : Option (Value U → Value U)) : Prop :=
  ∃ h1 h2, h = h1 ++ .reg T R f :: h2 ∧ ∀ o ∈ h2, ¬ (o.src = T ∧ o.dst = R)

/-- No registration for `(T, R)` is in force: there was none, or the last call was an `Unregister`. -/
def NoLatest (h : List (Op U)) (T R : U.Ty) : Prop :=
  (∀ o ∈ h, ¬ (o.src = T ∧ o.dst = R)) ∨
  ∃ h1 h2, h = h1 ++ .unreg T R :: h2 ∧ ∀ o ∈ h2, ¬ (o.src = T ∧ o.dst = R)

/-! ## Lemmas -/

/-- What `reflect.TypeOf(*new(T))` gives. -/
def key (U : Univ) (T : U.Ty) : Option U.Ty := if U.iface T then none else some T

theorem typeOf_zero (T : U.Ty) : typeOf (zeroOf U T) = key U T := by
  unfold zeroOf key typeOf
  by_cases h : U.iface T = false
  · simp [h, U.zero_dyn]
  · simp only [dif_neg h]; simp at h; simp [h]

/-- The converter stored under a pair of keys. -/
def look (c : Reg U) (k k' : Option U.Ty) : Option (Entry U) := (c k).bind (fun m => m k')

theorem look_register (T R : U.Ty) (f) (c : Reg U) (k k' : Option U.Ty) :
    look (register T R f c) k k' = if k = key U T ∧ k' = key U R then some ⟨T, R, f⟩ else look c k k' := by
  unfold register look
  simp only [typeOf_zero]
  cases hc : c (key U T) with
  | none =>
    simp only [if_true]
    by_cases h : k = key U T
    · subst h; by_cases h' : k' = key U R <;> simp [h', hc]
    · simp [h]
  | some m =>
    simp only [hc]
    by_cases h : k = key U T
    · subst h; by_cases h' : k' = key U R <;> simp [h', hc]
    · simp [h]

theorem look_unregister (T R : U.Ty) (c : Reg U) (k k' : Option U.Ty) :
    look (unregister T R c) k k' = if k = key U T ∧ k' = key U R then none else look c k k' := by
  unfold unregister look
  simp only [typeOf_zero]
  cases hc : c (key U T) with
  | none =>
    by_cases h : k = key U T
    · subst h; simp [hc]
    · simp [h]
  | some m =>
    by_cases h : k = key U T
    · subst h; by_cases h' : k' = key U R <;> simp [h', hc]
    · simp [h]

theorem exists_eq (T R : U.Ty) (c : Reg U) : exists' T R c = (look c (key U T) (key U R)).isSome := by
  unfold exists' look
  simp only [typeOf_zero]
  cases c (key U T) <;> rfl

theorem into_eq (T R : U.Ty) (v : Value U) (c : Reg U) : into T R v c =
    match look c (typeOf v) (key U R) with
    | none => .ret (zeroOf U R, false)
    | some e => if e.src = T ∧ e.dst = R then
        match e.fn with
        | none => .panic
        | some f => .ret (f v, true)
      else .ret (zeroOf U R, false) := by
  unfold into look
  simp only [typeOf_zero]
  cases c (typeOf v) with
  | none => rfl
  | some m =>
    simp only [Option.bind_some]
    cases m (key U R) with
    | none => rfl
    | some e => rfl

theorem run_snoc (h : List (Op U)) (o : Op U) : run (h ++ [o]) = o.apply (run h) := by simp [run]

/-- Converters are stored under the keys of their types. -/
theorem look_keys (h : List (Op U)) : ∀ k k' e, look (run h) k k' = some e → key U e.src = k ∧ key U e.dst = k' := by
  induction h using List.reverseRecOn with
  | nil => intro k k' e h; simp [run, look, empty] at h
  | append_singleton h o ih =>
    intro k k' e hl
    rw [run_snoc] at hl
    cases o with
    | reg T R f =>
      rw [Op.apply, look_register] at hl
      split at hl
      · rename_i g
        cases hl
        exact ⟨g.1.symm, g.2.symm⟩
      · exact ih _ _ _ hl
    | unreg T R =>
      rw [Op.apply, look_unregister] at hl
      split at hl
      · cases hl
      · exact ih _ _ _ hl

theorem key_concrete {T : U.Ty} (h : U.iface T = false) : key U T = some T := by simp [key, h]

theorem look_other {T R : U.Ty} (c : Reg U) (o : Op U) (h : ¬ (key U T = key U o.src ∧ key U R = key U o.dst)) :
    look (o.apply c) (key U T) (key U R) = look c (key U T) (key U R) := by
  cases o with
  | reg T' R' f => rw [Op.apply, look_register]; exact if_neg h
  | unreg T' R' => rw [Op.apply, look_unregister]; exact if_neg h

theorem look_foldl {T R : U.Ty} (hT : U.iface T = false) (hR : U.iface R = false) (h : List (Op U))
    (hc : ∀ o ∈ h, U.iface o.src = false ∧ U.iface o.dst = false) (hn : ∀ o ∈ h, ¬ (o.src = T ∧ o.dst = R)) : ∀ c : Reg U,
    look (h.foldl Op.apply c) (key U T) (key U R) = look c (key U T) (key U R) := by
  induction h with
  | nil => intro c; rfl
  | cons o h ih =>
    intro c
    rw [List.foldl_cons, ih (fun o ho => hc o (by simp [ho])) (fun o ho => hn o (by simp [ho])), look_other]
    rw [key_concrete hT, key_concrete hR, key_concrete (hc o (by simp)).1, key_concrete (hc o (by simp)).2]
    rintro ⟨h1, h2⟩
    exact hn o (by simp) ⟨(Option.some.inj h1).symm, (Option.some.inj h2).symm⟩

theorem look_latest {T R : U.Ty} {h : List (Op U)} {f} (hc : ∀ o ∈ h, U.iface o.src = false ∧ U.iface o.dst = false)
    (hl : Latest h T R f) : look (run h) (key U T) (key U R) = some ⟨T, R, f⟩ := by
  obtain ⟨h1, h2, rfl, hn⟩ := hl
  have hTR : U.iface T = false ∧ U.iface R = false := hc (.reg T R f) (by simp)
  unfold run
  rw [List.foldl_append, List.foldl_cons, look_foldl hTR.1 hTR.2 h2 (fun o ho => hc o (by simp [ho])) hn]
  rw [Op.apply, look_register, if_pos ⟨rfl, rfl⟩]

theorem look_noLatest {T R : U.Ty} {h : List (Op U)} (hT : U.iface T = false) (hR : U.iface R = false)
    (hc : ∀ o ∈ h, U.iface o.src = false ∧ U.iface o.dst = false)
    (hl : NoLatest h T R) : look (run h) (key U T) (key U R) = none := by
  rcases hl with hn | ⟨h1, h2, rfl, hn⟩
  · unfold run
    rw [look_foldl hT hR h hc hn]
    rfl
  · unfold run
    rw [List.foldl_append, List.foldl_cons, look_foldl hT hR h2 (fun o ho => hc o (by simp [ho])) hn]
    rw [Op.apply, look_unregister, if_pos ⟨rfl, rfl⟩]

theorem latest_cases (h : List (Op U)) (T R : U.Ty) : (∃ f, Latest h T R f) ∨ NoLatest h T R := by
  induction h using List.reverseRecOn with
  | nil => exact .inr (.inl (by simp))
  | append_singleton h o ih =>
    by_cases ho : o.src = T ∧ o.dst = R
    · cases o with
      | reg T' R' f => obtain ⟨rfl, rfl⟩ := ho; exact .inl ⟨f, h, [], rfl, by simp⟩
      | unreg T' R' => obtain ⟨rfl, rfl⟩ := ho; exact .inr (.inr ⟨h, [], rfl, by simp⟩)
    · rcases ih with ⟨f, h1, h2, rfl, hn⟩ | hn | ⟨h1, h2, rfl, hn⟩
      · refine .inl ⟨f, h1, h2 ++ [o], by simp, fun o' ho' => ?_⟩
        rcases List.mem_append.1 ho' with g | g
        · exact hn o' g
        · rw [List.mem_singleton.1 g]; exact ho
      · refine .inr (.inl fun o' ho' => ?_)
        rcases List.mem_append.1 ho' with g | g
        · exact hn o' g
        · rw [List.mem_singleton.1 g]; exact ho
      · refine .inr (.inr ⟨h1, h2 ++ [o], by simp, fun o' ho' => ?_⟩)
        rcases List.mem_append.1 ho' with g | g
        · exact hn o' g
        · rw [List.mem_singleton.1 g]; exact ho

/-! ## C62 -/

/-- C62: over concrete types. `v` is a value of type `T`. A nil converter is stored too, and calling it panics. -/
theorem C62_latest_registration (h : List (Op U)) (hc : ∀ o ∈ h, U.iface o.src = false ∧ U.iface o.dst = false)
    (T R : U.Ty) (hT : U.iface T = false) (hR : U.iface R = false) :
    (∀ f, Latest h T R f → exists' T R (run h) = true ∧ ∀ v : U.Dyn, U.dyn v = T →
      (∀ g, f = some g → into T R (some v) (run h) = .ret (g (some v), true) ∧
        ∀ or, intoOr T R (some v) or (run h) = .ret (g (some v))) ∧
      (f = none → into T R (some v) (run h) = .panic)) ∧
    (NoLatest h T R → exists' T R (run h) = false ∧ ∀ v : U.Dyn, U.dyn v = T →
      into T R (some v) (run h) = .ret (some (U.zero R hR), false) ∧
        ∀ or, intoOr T R (some v) or (run h) = .ret or) ∧
    ((∃ f, Latest h T R f) ∨ NoLatest h T R) ∧ ((∃ f, Latest h T R f) → ¬ NoLatest h T R) := by
  have tv : ∀ v : U.Dyn, U.dyn v = T → typeOf (some v) = key U T := fun v hv => by
    simp [typeOf, hv, key_concrete hT]
  refine ⟨fun f hl => ?_, fun hl => ?_, latest_cases h T R, fun ⟨f, hl⟩ hl' => ?_⟩
  · have g := look_latest hc hl
    refine ⟨by rw [exists_eq, g]; rfl, fun v hv => ⟨fun g' hg => ?_, fun hf => ?_⟩⟩
    · have : into T R (some v) (run h) = .ret (g' (some v), true) := by
        rw [into_eq, tv v hv, g]; simp [hg]
      exact ⟨this, fun or => by unfold intoOr; rw [this]; rfl⟩
    · rw [into_eq, tv v hv, g]; simp [hf]
  · have g := look_noLatest hT hR hc hl
    refine ⟨by rw [exists_eq, g]; rfl, fun v hv => ?_⟩
    have : into T R (some v) (run h) = .ret (some (U.zero R hR), false) := by
      rw [into_eq, tv v hv, g]; simp [zeroOf, hR]
    exact ⟨this, fun or => by unfold intoOr; rw [this]; rfl⟩
  · have g := look_latest hc hl
    rw [look_noLatest hT hR hc hl'] at g
    cases g

/-! ## C63 -/

/-- C63 in full: an operation for another pair of types changes nothing. -/
def C63_full : Prop := ∀ (U : Univ) (h : List (Op U)) (o : Op U) (T R : U.Ty), ¬ (o.src = T ∧ o.dst = R) →
  exists' T R (run (h ++ [o])) = exists' T R (run h) ∧
  ∀ v : Value U, (∀ d, v = some d → U.iface T = false → U.dyn d = T) → (v = none → U.iface T = true) →
    into T R v (run (h ++ [o])) = into T R v (run h)

/-- C63 when the pairs differ in a position where not both types are interfaces. Missing: pairs that differ only in
which interface they name; false for them (`C63_refuted`). -/
theorem C63_no_collision_partial (h : List (Op U)) (o : Op U) (T R : U.Ty)
    (hd : (o.src ≠ T ∧ ¬ (U.iface o.src = true ∧ U.iface T = true)) ∨ (o.dst ≠ R ∧ ¬ (U.iface o.dst = true ∧ U.iface R = true))) :
    exists' T R (run (h ++ [o])) = exists' T R (run h) ∧
    ∀ v : Value U, (∀ d, v = some d → U.iface T = false → U.dyn d = T) → (v = none → U.iface T = true) →
      into T R v (run (h ++ [o])) = into T R v (run h) := by
  have kne : ∀ A B : U.Ty, A ≠ B → ¬ (U.iface A = true ∧ U.iface B = true) → key U B ≠ key U A := by
    intro A B hne hi e
    unfold key at e
    cases ha : U.iface A <;> cases hb : U.iface B <;> simp [ha, hb] at e hi
    exact hne e.symm
  have hk : ¬ (key U T = key U o.src ∧ key U R = key U o.dst) := by
    rintro ⟨e1, e2⟩
    rcases hd with ⟨h1, h2⟩ | ⟨h1, h2⟩
    · exact kne _ _ h1 h2 e1
    · exact kne _ _ h1 h2 e2
  have hlk : look (run (h ++ [o])) (key U T) (key U R) = look (run h) (key U T) (key U R) := by
    rw [run_snoc, look_other _ _ hk]
  refine ⟨by rw [exists_eq, exists_eq, hlk], fun v hv1 hv2 => ?_⟩
  by_cases e : typeOf v = key U T
  · rw [into_eq, into_eq, e, hlk]
  · -- an interface value that is not nil: what is found is not a `func(T) R`
    have miss : ∀ h' : List (Op U), into T R v (run h') = .ret (zeroOf U R, false) := fun h' => by
      rw [into_eq]
      cases hl : look (run h') (typeOf v) (key U R) with
      | none => rfl
      | some en =>
        have := (look_keys h' _ _ _ hl).1
        simp only
        rw [if_neg]
        rintro ⟨rfl, -⟩
        exact e this.symm
    rw [miss, miss]

/-- A program with two interface types and two concrete ones. -/
abbrev exU : Univ where
  Ty := Bool × Bool
  iface := fun t => t.1
  Dyn := Bool × Nat
  dyn := fun v => (false, v.1)
  dyn_concrete := fun _ => rfl
  zero := fun T _ => (T.2, 0)
  zero_dyn := fun T h => by rcases T with ⟨a, b⟩; simp at h; simp [h]

/-- Registering for one interface type makes `Exists` hold for another, and registering for the other one then takes away
the first one's converter. -/
theorem C63_refuted : ¬ C63_full := by
  intro hc
  have := (hc exU [] (.reg (true, true) (false, false) none) (true, false) (false, false) (by decide)).1
  revert this
  decide

theorem C63_refuted_into : ∃ (h : List (Op exU)) (o : Op exU) (T R : exU.Ty), ¬ (o.src = T ∧ o.dst = R) ∧
    into T R none (run h) = .ret (some (false, 7), true) ∧
    into T R none (run (h ++ [o])) = .ret (some (false, 0), false) := by
  refine ⟨[.reg (true, true) (false, false) (some fun _ => some (false, 7))],
    .reg (true, false) (false, false) (some fun _ => some (false, 8)), (true, true), (false, false), by decide, rfl, rfl⟩

/-- A history for `C62_latest_registration`, with an overwritten and a withdrawn registration. -/
example : let h : List (Op exU) := [.reg (false, false) (false, true) none, .reg (false, false) (false, true) (some fun v => v),
      .reg (false, true) (false, true) none, .unreg (false, true) (false, true)]
    (∀ o ∈ h, exU.iface o.src = false ∧ exU.iface o.dst = false) ∧ Latest h (false, false) (false, true) (some fun v => v) ∧
      NoLatest h (false, true) (false, true) ∧ NoLatest h (false, true) (false, false) := by
  refine ⟨?_, ⟨[_], [_, _], rfl, ?_⟩, .inr ⟨[_, _, _], [], rfl, by simp⟩, .inl ?_⟩ <;> simp only [List.forall_mem_cons] <;> simp [Op.src, Op.dst] <;> decide

/-- Pairs that meet the hypothesis of `C63_no_collision_partial`: an interface and a concrete type. -/
example : (Op.unreg (U := exU) (true, false) (false, false)).src ≠ (false, false) ∧
    ¬ (exU.iface (Op.unreg (U := exU) (true, false) (false, false)).src = true ∧ exU.iface (false, false) = true) := by
  simp [Op.src, exU]

end Verif.ConvReg
