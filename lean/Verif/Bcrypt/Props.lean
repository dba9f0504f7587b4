import Verif.Bcrypt.Model
/-!
# Properties of `bcryptx`
-/
namespace Verif.Bcrypt

/-- C77: `Encrypt` rejects exactly the passwords of more than 72 bytes, and what it returns is accepted with the password. -/
theorem C77_encrypt (core : Core) (salt pw : Bytes) :
    (encrypt core (some salt) pw = .error .tooLong ↔ 72 < pw.length) ∧
    (pw.length ≤ 72 → ∃ r, encrypt core (some salt) pw = .ok r ∧ decrypt core r pw = (true, none)) ∧
    (pw.length ≤ 72 → encrypt core none pw = .error .rand) := by
  refine ⟨?_, ?_, ?_⟩
  · unfold encrypt generate
    split <;> simp_all
  · intro h
    refine ⟨.good 10 salt (core 10 salt (keyBytes pw)), ?_, ?_⟩
    · unfold encrypt
      rw [if_neg (by omega)]
      rfl
    · simp [decrypt, compare]
  · intro h
    unfold encrypt
    rw [if_neg (by omega)]
    rfl

/-- C77: what `Decrypt` returns: true without an error or false with one, and true exactly when the hash agrees. -/
theorem C77_decrypt (core : Core) (r : Record) (pw : Bytes) :
    ((decrypt core r pw).1 = true ↔ (decrypt core r pw).2 = none) ∧
    ((decrypt core r pw).1 = true ↔ ∃ c s, r = .good c s (core c s (keyBytes pw))) := by
  unfold decrypt compare
  cases r with
  | bad => simp
  | good c s h =>
    by_cases e : core c s (keyBytes pw) = h
    · simp [e]
    · simp only [if_neg e]
      simp only [Bool.false_eq_true, false_iff, reduceCtorEq, not_exists, Record.good.injEq, not_and, true_and]
      rintro c' s' rfl rfl rfl
      exact e rfl

/-- The full claim: no record accepts two passwords that differ (unless the function underneath has a collision). -/
def C77_full : Prop := ∀ (core : Core) (r : Record) (pw pw' : Bytes), decrypt core r pw = (true, none) → decrypt core r pw' = (true, none) →
  pw = pw' ∨ ∃ c s k k', k ≠ k' ∧ core c s k = core c s k'

theorem keyBytes_get (pw : Bytes) {i : Nat} (h : i < 72) : (keyBytes pw).getD i 0 = (pw ++ [0]).getD (i % (pw.length + 1)) 0 := by
  simp [keyBytes, List.getD_eq_getElem?_getD, h]

/-- From byte 73 on passwords are not compared, and `Decrypt` does not check the length; nor are trailing zero
bytes told apart when there is nothing else. -/
theorem C77_collisions (core : Core) (r : Record) :
    (∀ pw x : Bytes, 72 ≤ pw.length → decrypt core r (pw ++ x) = decrypt core r pw) ∧
    (∀ n : Nat, decrypt core r (List.replicate n 0) = decrypt core r []) := by
  have key : ∀ pw pw', keyBytes pw = keyBytes pw' → decrypt core r pw = decrypt core r pw' := by
    intro pw pw' h
    unfold decrypt compare
    rw [h]
  constructor
  · intro pw x h
    apply key
    unfold keyBytes
    apply List.map_congr_left
    intro i hi
    have hi := List.mem_range.1 hi
    rw [Nat.mod_eq_of_lt (by rw [List.length_append]; omega), Nat.mod_eq_of_lt (by omega)]
    simp only [List.getD_eq_getElem?_getD]
    rw [List.append_assoc, List.getElem?_append_left (by omega), List.getElem?_append_left (by omega)]
  · intro n
    apply key
    unfold keyBytes
    apply List.map_congr_left
    intro i hi
    rw [show List.replicate n (0 : UInt8) ++ [0] = List.replicate (n + 1) 0 from List.replicate_succ'.symm]
    rw [List.getD_eq_getElem?_getD, List.getElem?_replicate]
    simp [Nat.mod_one]
    split <;> rfl

theorem C77_refuted : ¬ C77_full := by
  intro h
  -- a function without collisions: it returns what it is given
  have h1 : decrypt (fun _ _ k => k) (.good 10 [] (keyBytes [])) [] = (true, none) := by simp [decrypt, compare]
  have h2 : decrypt (fun _ _ k => k) (.good 10 [] (keyBytes [])) [0] = (true, none) := by
    have := (C77_collisions (fun _ _ k => k) (.good 10 [] (keyBytes []))).2 1
    rw [show List.replicate 1 (0 : UInt8) = [0] from rfl] at this
    rw [this]; exact h1
  rcases h _ _ _ _ h1 h2 with e | ⟨_, _, k, k', hk, e⟩
  · cases e
  · exact hk e

/-- The key bytes determine a password without zero bytes of at most 72 bytes. -/
theorem keyBytes_inj {pw pw' : Bytes} (h0 : ∀ b ∈ pw, b ≠ 0) (h0' : ∀ b ∈ pw', b ≠ 0) (hl : pw.length ≤ 72) (hl' : pw'.length ≤ 72)
    (e : keyBytes pw = keyBytes pw') : pw = pw' := by
  have g : ∀ (p : Bytes) i, i < 72 → i < p.length → (keyBytes p).getD i 0 = p.getD i 0 := by
    intro p i h1 h2
    rw [keyBytes_get p h1, Nat.mod_eq_of_lt (by omega)]
    simp only [List.getD_eq_getElem?_getD]
    rw [List.getElem?_append_left h2]
  have gz : ∀ (p : Bytes), p.length < 72 → (keyBytes p).getD p.length 0 = 0 := by
    intro p h
    rw [keyBytes_get p h, Nat.mod_eq_of_lt (by omega)]
    simp [List.getD_eq_getElem?_getD]
  have nz : ∀ (p : Bytes), (∀ b ∈ p, b ≠ 0) → ∀ i, i < p.length → p.getD i 0 ≠ 0 := by
    intro p h i hi
    rw [List.getD_eq_getElem?_getD, List.getElem?_eq_getElem hi]
    exact h _ (List.getElem_mem hi)
  have len : pw.length = pw'.length := by
    rcases Nat.lt_trichotomy pw.length pw'.length with hlt | he | hlt
    · have h1 := gz pw (by omega)
      rw [e, g pw' _ (by omega) hlt] at h1
      exact absurd h1 (nz pw' h0' _ hlt)
    · exact he
    · have h1 := gz pw' (by omega)
      rw [← e, g pw _ (by omega) hlt] at h1
      exact absurd h1 (nz pw h0 _ hlt)
  apply List.ext_getElem len
  intro i h1 h2
  have a := g pw i (by omega) h1
  have b := g pw' i (by omega) h2
  rw [e, b] at a
  simpa [List.getD_eq_getElem?_getD, h1, h2] using a.symm

/-- C77 (partial): of two passwords without zero bytes, of at most 72 bytes, that are accepted with one record, either
they are equal or the function underneath has a collision. Missing: longer passwords and zero bytes. -/
theorem C77_distinct_partial (core : Core) (r : Record) (pw pw' : Bytes) (h0 : ∀ b ∈ pw, b ≠ 0) (h0' : ∀ b ∈ pw', b ≠ 0)
    (hl : pw.length ≤ 72) (hl' : pw'.length ≤ 72) (h : decrypt core r pw = (true, none)) (h' : decrypt core r pw' = (true, none)) :
    pw = pw' ∨ ∃ c s, r = .good c s (core c s (keyBytes pw)) ∧ keyBytes pw ≠ keyBytes pw' ∧ core c s (keyBytes pw) = core c s (keyBytes pw') := by
  by_cases e : keyBytes pw = keyBytes pw'
  · exact .inl (keyBytes_inj h0 h0' hl hl' e)
  · right
    obtain ⟨c, s, rfl⟩ := (C77_decrypt core r pw).2.1 (by rw [h])
    obtain ⟨c', s', e'⟩ := (C77_decrypt core _ pw').2.1 (by rw [h'])
    simp only [Record.good.injEq] at e'
    obtain ⟨rfl, rfl, e3⟩ := e'
    exact ⟨c, s, rfl, e, e3⟩

example : decrypt (fun _ _ k => k) (.good 10 [] (keyBytes [1, 2])) [1, 2] = (true, none) ∧ (∀ b ∈ ([1, 2] : Bytes), b ≠ 0) :=
  ⟨by simp [decrypt, compare], by decide⟩
/-- A function with a collision accepts two such passwords. -/
example : decrypt (fun _ _ _ => []) (.good 10 [] []) [1] = (true, none) ∧ decrypt (fun _ _ _ => []) (.good 10 [] []) [2] = (true, none) :=
  ⟨rfl, rfl⟩

end Verif.Bcrypt
