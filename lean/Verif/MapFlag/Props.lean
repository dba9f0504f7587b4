import Verif.MapFlag.Lemmas
/-!
# C176: what is stored in a concurrent map becomes visible to all who ask
-/
namespace Verif.MapFlag
open Verif.Conc Verif.Conc.RW
open Verif.SyncAny (PartialEq Op)
open Verif.SyncMap (Call Res)

variable {K V : Type} [Inhabited V] {eq : K → K → Bool} {k : K} {P : V → Prop} {e : Nat → FSt (List (K × V)) (List (K × V)) (Call K V) (Res K V)} {who : Nat → Option Nat}

/-- **C176, a `Set` that has returned** is seen by every call that starts later, whatever else goes on, as long as nobody takes the key away. `Get` returns only
what was stored under the key. -/
theorem C176_visible (pe : PartialEq eq) (x : Exec (SyncKey.syncmap eq) e who) (hk : ∀ m, Kept eq k P (e m).s.hist) {N id : Nat} {k' : K} {v : V} {r : Res K V}
    (h1 : eq k k' = true) (h2 : Event.inv id (.set k' v) ∈ (e N).s.hist) (h3 : Event.ret id r ∈ (e N).s.hist) : SeenFrom k P (fun n => (e n).s.hist) N := by
  intro m id' c r' n1 n2 n3
  simp only at n1 n2 n3
  obtain ⟨S, h, h', legal, m1, sub, st⟩ := x.later SyncKey.readsOnly (MapFair.C175_atomic pe x m) h2 h3 n1 n2 n3
  obtain ⟨w, hw, hP⟩ := there (k := k) (P := P) legal (fun y hy k1 h => (hk m).delete y.1 k1 (h ▸ sub y hy)) (fun y hy h => (hk m).clear y.1 (h ▸ sub y hy))
    (fun y hy k1 v1 h => (hk m).set y.1 k1 v1 (h ▸ sub y hy)) ⟨(id, .set k' v, r), m1, k', v, rfl, h1⟩
  cases c with
  | has k1 => rintro rfl; obtain ⟨rfl, -⟩ := st; rw [hw]; rfl
  | get k1 => rintro rfl; obtain ⟨rfl, -⟩ := st; exact ⟨w, hP, by rw [hw]; rfl⟩
  | _ => trivial

/-- **C176.** In a fair execution a `Set` that was called becomes visible, for all who ask later: they get an answer, and it is that the key is there. -/
theorem C176_seen (pe : PartialEq eq) (x : Exec (SyncKey.syncmap eq) e who) (fr : FairRun (SyncKey.syncmap eq) e who) (hk : ∀ m, Kept eq k P (e m).s.hist)
    {n id : Nat} {k' : K} {v : V} (h1 : eq k k' = true) (h2 : Event.inv id (.set k' v) ∈ (e n).s.hist) :
    ∃ N, n ≤ N ∧ SeenFrom k P (fun n => (e n).s.hist) N ∧
      ∀ m id' c, Event.inv id' c ∉ (e N).s.hist → Event.inv id' c ∈ (e m).s.hist → ∃ m' r, Event.ret id' r ∈ (e m').s.hist ∧ Shows k P c r := by
  obtain ⟨N, r, hN, h3⟩ := MapFair.C175_syncmap x fr n id _ h2
  obtain ⟨t, ht⟩ := x.grows hN
  have h2' : Event.inv id (.set k' v) ∈ (e N).s.hist := by rw [ht]; exact List.mem_append_left _ h2
  have seen := C176_visible pe x hk h1 h2' h3
  refine ⟨N, hN, seen, fun m id' c n1 n2 => ?_⟩
  obtain ⟨m', r', hm', n3⟩ := MapFair.C175_syncmap x fr m id' c n2
  obtain ⟨t', ht'⟩ := x.grows hm'
  exact ⟨m', r', n3, seen m' id' c r' n1 (by simp only; rw [ht']; exact List.mem_append_left _ n2) n3⟩

/-- **C176, waiting for all.** When each of finitely many keys is stored by somebody, there is a moment from which on every call that asks for one of them finds it. So
a goroutine that asks for them again and again comes to an end. -/
theorem C176_all (pe : PartialEq eq) (x : Exec (SyncKey.syncmap eq) e who) (fr : FairRun (SyncKey.syncmap eq) e who) (ks : List K)
    (hk : ∀ k ∈ ks, ∀ m, Kept eq k P (e m).s.hist) (hs : ∀ k ∈ ks, ∃ n id k' v, eq k k' = true ∧ Event.inv id (.set k' v) ∈ (e n).s.hist) :
    ∃ N, ∀ k ∈ ks, SeenFrom k P (fun n => (e n).s.hist) N := by
  induction ks with
  | nil => exact ⟨0, nofun⟩
  | cons k ks ih =>
    obtain ⟨N, h⟩ := ih (fun k h => hk k (List.mem_cons_of_mem _ h)) (fun k h => hs k (List.mem_cons_of_mem _ h))
    obtain ⟨n, id, k', v, h1, h2⟩ := hs k (by simp)
    obtain ⟨N', -, h', -⟩ := C176_seen pe x fr (hk k (by simp)) h1 h2
    have later : ∀ {k N N'}, N ≤ N' → SeenFrom k P (fun n => (e n).s.hist) N → SeenFrom k P (fun n => (e n).s.hist) N' := by
      intro k N N' hN hs m id c r n1 n2 n3
      obtain ⟨t, ht⟩ := x.grows hN
      exact hs m id c r (fun h => n1 (by simp only at h ⊢; rw [ht]; exact List.mem_append_left _ h)) n2 n3
    refine ⟨max N N', fun k1 hk1 => ?_⟩
    rcases List.mem_cons.1 hk1 with rfl | hk1
    · exact later (Nat.le_max_right ..) h'
    · exact later (Nat.le_max_left ..) (h k1 hk1)

/-- **C176, polling.** A goroutine that asks `Has` again and again until the answer is yes stops asking: if it did not, there would be calls after every moment, and the
answer to one of them is yes. -/
theorem C176_poll (pe : PartialEq eq) (x : Exec (SyncKey.syncmap eq) e who) (fr : FairRun (SyncKey.syncmap eq) e who) (hk : ∀ m, Kept eq k P (e m).s.hist)
    {n id : Nat} {k' : K} {v : V} (h1 : eq k k' = true) (h2 : Event.inv id (.set k' v) ∈ (e n).s.hist)
    (poll : ∀ N, ∃ m id', Event.inv id' (.has k) ∉ (e N).s.hist ∧ Event.inv id' (.has k) ∈ (e m).s.hist) :
    ∃ m id', Event.inv id' (.has k) ∈ (e m).s.hist ∧ Event.ret id' (.bool true) ∈ (e m).s.hist := by
  obtain ⟨N, -, -, h⟩ := C176_seen pe x fr hk h1 h2
  obtain ⟨m, id', n1, n2⟩ := poll N
  obtain ⟨m', r, n3, n4⟩ := h m id' _ n1 n2
  have n4 : r = .bool true := n4 rfl
  subst n4
  rcases Nat.le_total m m' with hm | hm
  · obtain ⟨t, ht⟩ := x.grows hm
    exact ⟨m', id', by rw [ht]; exact List.mem_append_left _ n2, n3⟩
  · obtain ⟨t, ht⟩ := x.grows hm
    exact ⟨m, id', n2, by rw [ht]; exact List.mem_append_left _ n3⟩

/-! ## An execution: goroutine 0 polls, goroutine 1 stores -/

open MapFair in
theorem run_calls (n id : Nat) (c : Call Nat Nat) (h : Event.inv id c ∈ (run n).s.hist) : c = .has 7 ∨ c = .set 7 7 := by
  have past : ∀ k, Event.inv id c ∈ MapFair.hist k → c = .has 7 ∨ c = .set 7 7 := by
    intro k
    induction k with
    | zero => intro h; cases h
    | succ k ih =>
      intro h
      simp only [MapFair.hist, List.mem_append, List.mem_singleton, Event.inv.injEq, reduceCtorEq, or_false] at h
      rcases h with (h | h) | h
      · exact ih h
      · exact .inl h.2
      · exact .inr h.2
  unfold run moment at h
  split at h <;> simp [s0, s1, s2, s3, s5, s6, s7, s8, s9, s10] at h <;> grind

open MapFair in
/-- The hypotheses hold of it, and goroutine 0 asks after every moment; its first answer is no. -/
example : Exec (SyncKey.syncmap (K := Nat) (V := Nat) natEq) run turn ∧ FairRun (SyncKey.syncmap natEq) run turn ∧ (∀ m, Kept natEq 7 (· = 7) (run m).s.hist) ∧
    Event.inv 1 (.set 7 7) ∈ (run 2).s.hist ∧ Event.ret 0 (.bool false) ∈ (run 7).s.hist ∧
    ∀ N, ∃ m id, Event.inv id (.has 7) ∉ (run N).s.hist ∧ Event.inv id (.has 7) ∈ (run m).s.hist := by
  refine ⟨run_exec, run_fair, fun m => ⟨fun id k' h => ?_, fun id h => ?_, fun id k' v h _ => ?_⟩, by simp [run, moment, s2], by simp [run, moment, s7, mem, SyncAny.find], fun N => ?_⟩
  · rcases run_calls m id _ h with h | h <;> cases h
  · rcases run_calls m id _ h with h | h <;> cases h
  · rcases run_calls m id _ h with h | h <;> cases h; rfl
  · refine ⟨11 * (N + 1) + 1, 2 * (N + 1), fun h => ?_, ?_⟩
    · obtain ⟨S, i⟩ := (run_exec.reach N).inv SyncKey.readsOnly
      have h1 := i.fresh _ _ h
      have h2 : (run N).s.next ≤ 2 * (N / 11) + 2 := by
        unfold run moment
        split <;> simp [s0, s1, s2, s3, s5, s6, s7, s8, s9, s10]
      omega
    · have h1 : (11 * (N + 1) + 1) / 11 = N + 1 := by omega
      have h2 : (11 * (N + 1) + 1) % 11 = 1 := by omega
      rw [run, h1, h2]
      simp [moment, s1]

end Verif.MapFlag
