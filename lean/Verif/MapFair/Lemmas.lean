import Verif.MapFair.Spec
import Verif.SyncKey.Lemmas
/-!
# Lemmas for C175: two endless executions of a concurrent map
-/
namespace Verif.MapFair
open Verif.Conc Verif.Conc.RW Verif.SyncAny
open Verif.SyncMap (Call Res)

abbrev natEq : Nat → Nat → Bool := (· == ·)
abbrev M := SyncKey.syncmap (K := Nat) (V := Nat) natEq
abbrev S := SyncKey.St Nat Nat

/-! ## Goroutine 0 asks for a key, goroutine 1 stores under it, for ever -/

def mem (k : Nat) : List (Nat × Nat) := if k = 0 then [] else [(7, 7)]

theorem mem_succ (k : Nat) : assign natEq (mem k) 7 7 = mem (k + 1) := by
  cases k <;> rfl

def hist : Nat → List (Event (Call Nat Nat) (Res Nat Nat))
  | 0 => []
  | k + 1 => hist k ++ [.inv (2 * k) (.has 7)] ++ [.inv (2 * k + 1) (.set 7 7)] ++ [.ret (2 * k) (.bool (find natEq (mem k) 7).isSome)] ++ [.ret (2 * k + 1) .unit]

/-- Round `k`, its moments. -/
def s0 (k : Nat) : S := { m := mem k, writer := none, readers := [], pc := fun _ => .idle, next := 2 * k, hist := hist k }
def s1 (k : Nat) : S := { s0 k with pc := setPc (s0 k).pc 0 (.want (2 * k) (.has 7)), next := 2 * k + 1, hist := hist k ++ [.inv (2 * k) (.has 7)] }
def s2 (k : Nat) : S := { s1 k with pc := setPc (s1 k).pc 1 (.want (2 * k + 1) (.set 7 7)), next := 2 * k + 2, hist := (s1 k).hist ++ [.inv (2 * k + 1) (.set 7 7)] }
def s3 (k : Nat) : S := { s2 k with pc := setPc (s2 k).pc 0 (.body (2 * k) (.has 7) []), readers := [0] }
def s5 (k : Nat) : S := { s3 k with pc := setPc (s3 k).pc 0 (.held (2 * k) (.has 7) (.bool (find natEq (mem k) 7).isSome)) }
def s6 (k : Nat) : S := { s5 k with pc := setPc (s5 k).pc 0 (.out (2 * k) (.has 7) (.bool (find natEq (mem k) 7).isSome)), readers := [] }
def s7 (k : Nat) : S := { s6 k with pc := setPc (s6 k).pc 0 .idle, hist := (s6 k).hist ++ [.ret (2 * k) (.bool (find natEq (mem k) 7).isSome)] }
def s8 (k : Nat) : S := { s7 k with pc := setPc (s7 k).pc 1 (.body (2 * k + 1) (.set 7 7) []), writer := some 1 }
def s9 (k : Nat) : S := { s8 k with pc := setPc (s8 k).pc 1 (.held (2 * k + 1) (.set 7 7) .unit), m := mem (k + 1) }
def s10 (k : Nat) : S := { s9 k with pc := setPc (s9 k).pc 1 (.out (2 * k + 1) (.set 7 7) .unit), writer := none }

theorem s11 (k : Nat) : ({ s10 k with pc := setPc (s10 k).pc 1 .idle, hist := (s10 k).hist ++ [.ret (2 * k + 1) .unit] } : S) = s0 (k + 1) := by
  have : setPc (s10 k).pc 1 .idle = (s0 (k + 1)).pc := by
    funext t
    by_cases h1 : t = 1
    · subst h1; rfl
    · by_cases h0 : t = 0
      · subst h0; rfl
      · simp [s0, s1, s2, s3, s5, s6, s7, s8, s9, s10, setPc, h0, h1]
  rw [this]
  rfl

def moment (k : Nat) : Nat → FSt (List (Nat × Nat)) (List (Nat × Nat)) (Call Nat Nat) (Res Nat Nat)
  | 0 => ⟨s0 k, none⟩
  | 1 => ⟨s1 k, none⟩
  | 2 => ⟨s2 k, none⟩
  | 3 => ⟨s3 k, none⟩
  | 4 => ⟨s3 k, some 1⟩
  | 5 => ⟨s5 k, some 1⟩
  | 6 => ⟨s6 k, some 1⟩
  | 7 => ⟨s7 k, some 1⟩
  | 8 => ⟨s8 k, some 1⟩
  | 9 => ⟨s9 k, some 1⟩
  | _ => ⟨s10 k, none⟩

def mover : Nat → Nat
  | 0 => 0
  | 1 => 1
  | 2 => 0
  | 3 => 1
  | 4 => 0
  | 5 => 0
  | 6 => 0
  | _ => 1

theorem moment_step (k i : Nat) (hi : i < 10) : FStep M (mover i) (moment k i) (moment k (i + 1)) := by
  match i, hi with
  | 0, _ => exact .invoke (s := s0 k) (c := .has 7) rfl
  | 1, _ => exact .invoke (s := s1 k) (c := .set 7 7) rfl
  | 2, _ => exact .rlock (s := s2 k) (id := 2 * k) (c := .has 7) rfl rfl rfl
  | 3, _ => exact .announce (s := s3 k) (id := 2 * k + 1) (c := .set 7 7) rfl rfl
  | 4, _ => exact .access (s := s3 k) (id := 2 * k) (c := .has 7) (acc := []) (r := .bool (find natEq (mem k) 7).isSome) (m' := mem k) rfl ⟨rfl, rfl⟩
  | 5, _ => exact .runlock (s := s5 k) (id := 2 * k) (c := .has 7) (r := .bool (find natEq (mem k) 7).isSome) rfl rfl
  | 6, _ => exact .ret (s := s6 k) (id := 2 * k) (c := .has 7) (r := .bool (find natEq (mem k) 7).isSome) rfl
  | 7, _ => exact .lock (s := s7 k) (id := 2 * k + 1) (c := .set 7 7) rfl rfl rfl rfl
  | 8, _ => exact .access (s := s8 k) (id := 2 * k + 1) (c := .set 7 7) (acc := []) (r := .unit) (m' := mem (k + 1)) rfl ⟨rfl, (mem_succ k).symm⟩
  | 9, _ => exact .unlock (s := s9 k) (id := 2 * k + 1) (c := .set 7 7) (r := .unit) rfl rfl

theorem moment_last (k : Nat) : FStep M 1 (moment k 10) (moment (k + 1) 0) := by
  have h : FStep M 1 (⟨s10 k, none⟩ : FSt _ _ _ _) _ := .ret (s := s10 k) (a := none) (id := 2 * k + 1) (c := .set 7 7) (r := .unit) rfl
  rw [s11] at h
  exact h

def run (n : Nat) := moment (n / 11) (n % 11)
def turn (n : Nat) : Option Nat := some (mover (n % 11))

theorem run_exec : Exec M run turn where
  zero := rfl
  step n t h := by
    cases h
    by_cases hi : n % 11 < 10
    · have h1 : (n + 1) / 11 = n / 11 := by omega
      have h2 : (n + 1) % 11 = n % 11 + 1 := by omega
      rw [run, run, h1, h2]
      exact moment_step _ _ hi
    · have h1 : (n + 1) / 11 = n / 11 + 1 := by omega
      have h2 : (n + 1) % 11 = 0 := by omega
      have h3 : n % 11 = 10 := by omega
      rw [run, run, h1, h2, h3]
      exact moment_last _
  rest n h := by cases h

theorem run_fair : FairRun M run turn := by
  intro n t hi _
  have h01 : t = 0 ∨ t = 1 := by
    by_contra hc
    refine hi ?_
    have h0 : t ≠ 0 := fun h => hc (.inl h)
    have h1 : t ≠ 1 := fun h => hc (.inr h)
    have : ∀ k i, (moment k i).s.pc t = .idle := by
      intro k i
      unfold moment
      split <;> simp [s0, s1, s2, s3, s5, s6, s7, s8, s9, s10, setPc, h0, h1]
    exact this _ _
  rcases h01 with rfl | rfl
  · exact ⟨11 * (n / 11 + 1), by omega, by simp [turn, mover]⟩
  · exact ⟨11 * (n / 11 + 1) + 1, by omega, by simp [turn, Nat.mul_add_mod, mover]⟩

/-! ## With a lock that lets readers pass: goroutine 2 never gets to store -/

def base : List (Event (Call Nat Nat) (Res Nat Nat)) := [.inv 0 .size, .inv 1 (.set 7 7)]

/-- The number of the call of goroutine 0 that is on in round `k`. -/
def num : Nat → Nat
  | 0 => 0
  | k + 1 => 2 * k + 3

def past : Nat → List (Event (Call Nat Nat) (Res Nat Nat))
  | 0 => base
  | k + 1 => past k ++ [.inv (2 * k + 2) .size] ++ [.ret (num k) (.num 0)] ++ [.inv (2 * k + 3) .size] ++ [.ret (2 * k + 2) (.num 0)]

def pcs (p0 p1 : Pc (List (Nat × Nat)) (Call Nat Nat) (Res Nat Nat)) : Nat → Pc (List (Nat × Nat)) (Call Nat Nat) (Res Nat Nat)
  | 0 => p0
  | 1 => p1
  | 2 => .want 1 (.set 7 7)
  | _ => .idle

theorem pcs0 (p0 p1 p : Pc (List (Nat × Nat)) (Call Nat Nat) (Res Nat Nat)) : setPc (pcs p0 p1) 0 p = pcs p p1 := by
  funext t
  match t with
  | 0 => rfl
  | 1 => rfl
  | 2 => rfl
  | _ + 3 => rfl

theorem pcs1 (p0 p1 p : Pc (List (Nat × Nat)) (Call Nat Nat) (Res Nat Nat)) : setPc (pcs p0 p1) 1 p = pcs p0 p := by
  funext t
  match t with
  | 0 => rfl
  | 1 => rfl
  | 2 => rfl
  | _ + 3 => rfl

def at' (p0 p1 : Pc (List (Nat × Nat)) (Call Nat Nat) (Res Nat Nat)) (rd : List Nat) (nx : Nat) (h : List (Event (Call Nat Nat) (Res Nat Nat))) : S :=
  { m := [], writer := none, readers := rd, pc := pcs p0 p1, next := nx, hist := h }

/-- Round `k`, its moments. -/
def pass (k : Nat) : Nat → S
  | 0 => at' (.body (num k) .size []) .idle [0] (2 * k + 2) (past k)
  | 1 => at' (.body (num k) .size []) (.want (2 * k + 2) .size) [0] (2 * k + 3) (past k ++ [.inv (2 * k + 2) .size])
  | 2 => at' (.body (num k) .size []) (.body (2 * k + 2) .size []) [1, 0] (2 * k + 3) (past k ++ [.inv (2 * k + 2) .size])
  | 3 => at' (.held (num k) .size (.num 0)) (.body (2 * k + 2) .size []) [1, 0] (2 * k + 3) (past k ++ [.inv (2 * k + 2) .size])
  | 4 => at' (.out (num k) .size (.num 0)) (.body (2 * k + 2) .size []) [1] (2 * k + 3) (past k ++ [.inv (2 * k + 2) .size])
  | 5 => at' .idle (.body (2 * k + 2) .size []) [1] (2 * k + 3) (past k ++ [.inv (2 * k + 2) .size] ++ [.ret (num k) (.num 0)])
  | 6 => at' (.want (2 * k + 3) .size) (.body (2 * k + 2) .size []) [1] (2 * k + 4)
      (past k ++ [.inv (2 * k + 2) .size] ++ [.ret (num k) (.num 0)] ++ [.inv (2 * k + 3) .size])
  | 7 => at' (.body (2 * k + 3) .size []) (.body (2 * k + 2) .size []) [0, 1] (2 * k + 4)
      (past k ++ [.inv (2 * k + 2) .size] ++ [.ret (num k) (.num 0)] ++ [.inv (2 * k + 3) .size])
  | 8 => at' (.body (2 * k + 3) .size []) (.held (2 * k + 2) .size (.num 0)) [0, 1] (2 * k + 4)
      (past k ++ [.inv (2 * k + 2) .size] ++ [.ret (num k) (.num 0)] ++ [.inv (2 * k + 3) .size])
  | _ => at' (.body (2 * k + 3) .size []) (.out (2 * k + 2) .size (.num 0)) [0] (2 * k + 4)
      (past k ++ [.inv (2 * k + 2) .size] ++ [.ret (num k) (.num 0)] ++ [.inv (2 * k + 3) .size])

def passer : Nat → Nat
  | 0 => 1
  | 1 => 1
  | 2 => 0
  | 3 => 0
  | 4 => 0
  | 5 => 0
  | 6 => 0
  | _ => 1

theorem only {p0 p1 q0 q1 : Pc (List (Nat × Nat)) (Call Nat Nat) (Res Nat Nat)} {u : Nat} (h : u = 0 ∧ p1 = q1 ∨ u = 1 ∧ p0 = q0) (t : Nat) (ht : t ≠ u) :
    pcs q0 q1 t = pcs p0 p1 t := by
  rcases h with ⟨rfl, rfl⟩ | ⟨rfl, rfl⟩
  · match t, ht with
    | 1, _ => rfl
    | 2, _ => rfl
    | _ + 3, _ => rfl
  · match t, ht with
    | 0, _ => rfl
    | 2, _ => rfl
    | _ + 3, _ => rfl

theorem pass_step (k i : Nat) (hi : i < 9) : StepBy M (passer i) (pass k i) (pass k (i + 1)) := by
  match i, hi with
  | 0, _ =>
    refine ⟨?_, nofun, only (.inr ⟨rfl, rfl⟩)⟩
    have := Step.invoke (g := M) (s := pass k 0) (t := 1) (c := .size) rfl
    simp only [pass, at', pcs1] at this; exact this
  | 1, _ =>
    refine ⟨?_, nofun, only (.inr ⟨rfl, rfl⟩)⟩
    have := Step.rlock (g := M) (s := pass k 1) (t := 1) (id := 2 * k + 2) (c := .size) rfl rfl rfl
    simp only [pass, at', pcs1] at this; exact this
  | 2, _ =>
    refine ⟨?_, nofun, only (.inl ⟨rfl, rfl⟩)⟩
    have := Step.access (g := M) (s := pass k 2) (t := 0) (id := num k) (c := .size) (acc := []) (r := .num 0) (m' := []) rfl ⟨rfl, rfl⟩
    simp only [pass, at', pcs0] at this; exact this
  | 3, _ =>
    refine ⟨?_, nofun, only (.inl ⟨rfl, rfl⟩)⟩
    have := Step.runlock (g := M) (s := pass k 3) (t := 0) (id := num k) (c := .size) (r := .num 0) rfl rfl
    simp only [pass, at', pcs0] at this; exact this
  | 4, _ =>
    refine ⟨?_, nofun, only (.inl ⟨rfl, rfl⟩)⟩
    have := Step.ret (g := M) (s := pass k 4) (t := 0) (id := num k) (c := .size) (r := .num 0) rfl
    simp only [pass, at', pcs0] at this; exact this
  | 5, _ =>
    refine ⟨?_, nofun, only (.inl ⟨rfl, rfl⟩)⟩
    have := Step.invoke (g := M) (s := pass k 5) (t := 0) (c := .size) rfl
    simp only [pass, at', pcs0] at this; exact this
  | 6, _ =>
    refine ⟨?_, nofun, only (.inl ⟨rfl, rfl⟩)⟩
    have := Step.rlock (g := M) (s := pass k 6) (t := 0) (id := 2 * k + 3) (c := .size) rfl rfl rfl
    simp only [pass, at', pcs0] at this; exact this
  | 7, _ =>
    refine ⟨?_, nofun, only (.inr ⟨rfl, rfl⟩)⟩
    have := Step.access (g := M) (s := pass k 7) (t := 1) (id := 2 * k + 2) (c := .size) (acc := []) (r := .num 0) (m' := []) rfl ⟨rfl, rfl⟩
    simp only [pass, at', pcs1] at this; exact this
  | 8, _ =>
    refine ⟨?_, nofun, only (.inr ⟨rfl, rfl⟩)⟩
    have := Step.runlock (g := M) (s := pass k 8) (t := 1) (id := 2 * k + 2) (c := .size) (r := .num 0) rfl rfl
    simp only [pass, at', pcs1] at this; exact this

theorem pass_last (k : Nat) : StepBy M 1 (pass k 9) (pass (k + 1) 0) := by
  refine ⟨?_, nofun, only (.inr ⟨rfl, rfl⟩)⟩
  have := Step.ret (g := M) (s := pass k 9) (t := 1) (id := 2 * k + 2) (c := .size) (r := .num 0) rfl
  simp only [pass, at', pcs1] at this; exact this

def run' (n : Nat) : S := pass (n / 10) (n % 10)
def turn' (n : Nat) : Nat := passer (n % 10)

theorem first_reach : Reach M (pass 0 0) := by
  have h := ((Reach.init.step (Step.invoke (g := M) (s := start M) (t := 0) (c := .size) rfl)).step
    (.rlock (t := 0) (id := 0) (c := .size) rfl rfl rfl)).step (.invoke (t := 2) (c := .set 7 7) rfl)
  have e : setPc (setPc (setPc (start M).pc 0 (.want 0 .size)) 0 (.body 0 .size M.start)) 2 (.want (0 + 1) (.set 7 7)) = pcs (.body 0 .size []) .idle := by
    funext t
    match t with
    | 0 => rfl
    | 1 => rfl
    | 2 => rfl
    | t + 3 => simp [setPc, pcs, start]
  simp only [start] at h e
  rw [e] at h
  exact h

theorem pass_wait (k i : Nat) : (pass k i).pc 2 = .want 1 (.set 7 7) ∧ (pass k i).readers ≠ [] := by
  unfold pass
  split <;> exact ⟨rfl, nofun⟩

theorem run_free : Free M run' turn' where
  zero := first_reach
  step n := by
    by_cases hi : n % 10 < 9
    · have h1 : (n + 1) / 10 = n / 10 := by omega
      have h2 : (n + 1) % 10 = n % 10 + 1 := by omega
      rw [run', run', h1, h2, turn']
      exact pass_step _ _ hi
    · have h1 : (n + 1) / 10 = n / 10 + 1 := by omega
      have h2 : (n + 1) % 10 = 0 := by omega
      have h3 : n % 10 = 9 := by omega
      rw [run', run', h1, h2, turn', h3]
      exact pass_last _
  fair n t hi hen := by
    match t, hi with
    | 0, _ => exact ⟨10 * (n / 10 + 1) + 2, by omega, by simp [turn', Nat.mul_add_mod, passer]⟩
    | 1, _ => exact ⟨10 * (n / 10 + 1), by omega, by simp [turn', passer]⟩
    | 2, _ =>
      exfalso
      obtain ⟨m, -, y, st, hne, ho⟩ := hen 0
      obtain ⟨w1, w2⟩ := pass_wait (m / 10) (m % 10)
      rw [show pass (m / 10) (m % 10) = run' m from rfl] at w1 w2
      generalize run' m = s at st hne ho w1 w2
      have two : ∀ {t : Nat} {p}, setPc s.pc t p 2 ≠ s.pc 2 → t = 2 := by
        intro t p h
        by_contra hc
        exact h (setPc_ne _ _ (Ne.symm hc))
      cases st with
      | invoke h1 => have := two hne; subst this; rw [w1] at h1; cases h1
      | rlock h1 h2 => have := two hne; subst this; rw [w1] at h1; cases h1; cases h2
      | lock h1 h2 h3 h4 => exact w2 h4
      | iter h1 => have := two hne; subst this; rw [w1] at h1; cases h1
      | access h1 => have := two hne; subst this; rw [w1] at h1; cases h1
      | runlock h1 => have := two hne; subst this; rw [w1] at h1; cases h1
      | unlock h1 => have := two hne; subst this; rw [w1] at h1; cases h1
      | ret h1 => have := two hne; subst this; rw [w1] at h1; cases h1
    | t + 3, hi =>
      refine absurd ?_ hi
      unfold run' pass
      split <;> rfl

theorem past_ret (k : Nat) : ∀ r, Event.ret 1 r ∉ past k := by
  induction k with
  | zero => intro r h; simp [past, base] at h
  | succ k ih =>
    intro r h
    simp only [past, List.mem_append, List.mem_singleton] at h
    rcases h with (((h | h) | h) | h) | h
    · exact ih r h
    · cases h
    · simp only [Event.ret.injEq] at h
      cases k with
      | zero => simp [num] at h
      | succ k => simp [num] at h
    · cases h
    · simp only [Event.ret.injEq] at h; omega

theorem run_ret (n : Nat) (r : Res Nat Nat) : Event.ret 1 r ∉ (run' n).hist := by
  have a := past_ret (n / 10)
  have b : (1 : Nat) ≠ num (n / 10) := by
    cases n / 10 with
    | zero => simp [num]
    | succ k => simp [num]
  intro h
  unfold run' pass at h
  split at h <;> simp [at', a, b] at h

end Verif.MapFair
