import Verif.UserStore.Lemmas
/-!
# C182: password records in a concurrent map
-/
namespace Verif.UserStore
open Verif.Conc Verif.Conc.RW Verif.PassHash Verif.Go
open Verif.SyncMap (Call Res)

variable {U : Type} [DecidableEq U] {K : Kdf} {req : Nat → Req U} {s : SyncKey.St U Bytes}

theorem same_pe : SyncAny.PartialEq (same (U := U)) := ⟨fun h => by simpa [same, eq_comm] using h, fun h h' => by simp_all [same]⟩

/-- C182: a login that has asked the map does not panic, and its answer is the one that a change decides which may be the last one before the login, or,
if no change had returned when it asked, perhaps "no record". -/
theorem C182_latest (hK : ∀ p s t m th l, (K p s t m th l).length = l) (hf : Fills req) (h : Reach (SyncKey.syncmap same) s) (sv : Serves K req s.hist)
    {i : Nat} {u : U} {pw : Bytes} (hi : req i = .login u pw) {r : Res U Bytes} (hr : .ret i r ∈ s.hist) :
    ∃ e, answers K (req i) r = .ret e ∧
      ((∃ p, MayBeLast req s.hist u i p ∧ Decides K pw (req p) e) ∨
        (e = some .invalidPassHash ∧ ∀ p, Changes u (req p) → ¬ ∃ r c, Before s.hist (.ret p r) (.inv i c))) :=
  latest hK hf (SyncKey.C106_linearizable same_pe h) sv hi hr

/-- Who is let in gave a password with the key of one that was set for this user and may be the current one. -/
theorem C182_sound (hK : ∀ p s t m th l, (K p s t m th l).length = l) (hf : Fills req) (h : Reach (SyncKey.syncmap same) s) (sv : Serves K req s.hist)
    {i : Nat} {u : U} {pw : Bytes} (hi : req i = .login u pw) {r : Res U Bytes} (hr : .ret i r ∈ s.hist) (ok : answers K (req i) r = .ret none) :
    ∃ p pw' level rnd, req p = .setPassword u pw' level rnd ∧ SameKey K level rnd pw' pw ∧ MayBeLast req s.hist u i p := by
  obtain ⟨e, h1, h2⟩ := C182_latest hK hf h sv hi hr
  rw [ok] at h1
  cases h1
  rcases h2 with ⟨p, hp, hd⟩ | ⟨hn, -⟩
  · have hc := hp.1
    cases hq : req p with
    | login => rw [hq] at hd; exact hd.elim
    | remove => rw [hq] at hd; cases hd
    | setPassword u' pw' level rnd =>
      rw [hq] at hd hc
      cases hc
      refine ⟨p, pw', level, rnd, hq, ?_, hp⟩
      by_contra hn
      cases hd.2 hn
  · cases hn

/-- When a change had returned before the login asked, and all changes that may be the last one set this password, it is let in. -/
theorem C182_right (hK : ∀ p s t m th l, (K p s t m th l).length = l) (hf : Fills req) (h : Reach (SyncKey.syncmap same) s) (sv : Serves K req s.hist)
    {i : Nat} {u : U} {pw : Bytes} (hi : req i = .login u pw) {r : Res U Bytes} (hr : .ret i r ∈ s.hist)
    {p0 : Nat} (h0 : Changes u (req p0)) (hb : ∃ r c, Before s.hist (.ret p0 r) (.inv i c))
    (hall : ∀ p, MayBeLast req s.hist u i p → ∃ level rnd, req p = .setPassword u pw level rnd) : answers K (req i) r = .ret none := by
  obtain ⟨e, h1, h2⟩ := C182_latest hK hf h sv hi hr
  rcases h2 with ⟨p, hp, hd⟩ | ⟨-, hn⟩
  · obtain ⟨level, rnd, hq⟩ := hall p hp
    obtain ⟨c, hc⟩ := hp.2.1
    have ha := sv _ _ hc
    rw [hq] at hd ha
    rw [h1, hd.1 (sameKey_self hK ha (hf _ _ _ _ _ hq))]
  · exact absurd hb (hn p0 h0)

/-- When all the changes that may be the last one removed the user or set passwords with other keys, it is refused. -/
theorem C182_wrong (hK : ∀ p s t m th l, (K p s t m th l).length = l) (hf : Fills req) (h : Reach (SyncKey.syncmap same) s) (sv : Serves K req s.hist)
    {i : Nat} {u : U} {pw : Bytes} (hi : req i = .login u pw) {r : Res U Bytes} (hr : .ret i r ∈ s.hist)
    (hall : ∀ p, MayBeLast req s.hist u i p → ∀ pw' level rnd, req p = .setPassword u pw' level rnd → ¬ SameKey K level rnd pw' pw) :
    answers K (req i) r = .ret (some .hashMismatch) ∨ answers K (req i) r = .ret (some .invalidPassHash) := by
  obtain ⟨e, h1, h2⟩ := C182_latest hK hf h sv hi hr
  rcases h2 with ⟨p, hp, hd⟩ | ⟨rfl, -⟩
  · have hc := hp.1
    cases hq : req p with
    | login => rw [hq] at hd; exact hd.elim
    | remove => rw [hq] at hd; cases hd; exact .inr h1
    | setPassword u' pw' level rnd =>
      rw [hq] at hd hc
      cases hc
      rw [h1, hd.2 (hall p hp pw' level rnd hq)]
      exact .inl rfl
  · exact .inr h1

/-! ### A run: user 7 gets a password, logs in, gets another one, and tries the old one -/

/-- The record of a password with the key derivation function of `Verif.PassHash`'s examples. -/
def exRec (pw : Bytes) : Bytes := record 2 (List.replicate 16 5) (exK pw (List.replicate 16 5) 4 37888 1 32)

theorem exAsks (u : Nat) (pw : Bytes) : asks exK (.setPassword u pw 3 exRnd) = some (.set u (exRec pw)) := by
  obtain ⟨k, h1, -, h3⟩ := hashPw_eq exK_len (rnd := exRnd) (slt := List.replicate 16 5) rfl rfl pw (sl := 3) (by decide)
  have : k = exK pw (List.replicate 16 5) 4 37888 1 32 := (Option.some.inj h1).symm
  subst this
  simp only [asks]
  rw [h3]
  rfl

def exReq : Nat → Req Nat
  | 0 => .setPassword 7 [1, 2] 3 exRnd
  | 1 => .login 7 [1, 2]
  | 2 => .setPassword 7 [1, 3] 3 exRnd
  | 3 => .login 7 [1, 2]
  | _ => .login 7 [4]

def exHist : List (Event (Call Nat Bytes) (Res Nat Bytes)) :=
  [.inv 0 (.set 7 (exRec [1, 2])), .ret 0 .unit, .inv 1 (.get 7), .ret 1 (.val (exRec [1, 2])), .inv 2 (.set 7 (exRec [1, 3])), .ret 2 .unit,
    .inv 3 (.get 7), .ret 3 (.val (exRec [1, 3]))]

theorem ex_run (a b : Bytes) : ∃ s : SyncKey.St Nat Bytes, Reach (SyncKey.syncmap same) s ∧
    s.hist = [.inv 0 (.set 7 a), .ret 0 .unit, .inv 1 (.get 7), .ret 1 (.val a), .inv 2 (.set 7 b), .ret 2 .unit, .inv 3 (.get 7), .ret 3 (.val b)] := by
  have h1 := RW.Reach.init.step (RW.Step.invoke (g := SyncKey.syncmap (K := Nat) (V := Bytes) same) (s := RW.start _) (t := 0) (c := .set 7 a) rfl)
  have h2 := h1.step (.lock (t := 0) (id := 0) (c := .set 7 a) rfl rfl rfl rfl)
  have h3 := h2.step (.access (t := 0) (id := 0) (c := .set 7 a) (acc := []) (r := .unit) (m' := [(7, a)]) rfl (by exact ⟨rfl, rfl⟩))
  have h4 := h3.step (.unlock (t := 0) (id := 0) (c := .set 7 a) (r := .unit) rfl rfl)
  have h5 := h4.step (.ret (t := 0) (id := 0) (c := .set 7 a) (r := .unit) rfl)
  have h6 := h5.step (.invoke (t := 1) (c := .get 7) rfl)
  have h7 := h6.step (.rlock (t := 1) (id := 1) (c := .get 7) rfl rfl rfl)
  have h8 := h7.step (.access (t := 1) (id := 1) (c := .get 7) (acc := []) (r := .val a) (m' := [(7, a)]) rfl (by exact ⟨rfl, rfl⟩))
  have h9 := h8.step (.runlock (t := 1) (id := 1) (c := .get 7) (r := .val a) rfl rfl)
  have h10 := h9.step (.ret (t := 1) (id := 1) (c := .get 7) (r := .val a) rfl)
  have h11 := h10.step (.invoke (t := 0) (c := .set 7 b) rfl)
  have h12 := h11.step (.lock (t := 0) (id := 2) (c := .set 7 b) rfl rfl rfl rfl)
  have h13 := h12.step (.access (t := 0) (id := 2) (c := .set 7 b) (acc := []) (r := .unit) (m' := [(7, b)]) rfl (by exact ⟨rfl, rfl⟩))
  have h14 := h13.step (.unlock (t := 0) (id := 2) (c := .set 7 b) (r := .unit) rfl rfl)
  have h15 := h14.step (.ret (t := 0) (id := 2) (c := .set 7 b) (r := .unit) rfl)
  have h16 := h15.step (.invoke (t := 1) (c := .get 7) rfl)
  have h17 := h16.step (.rlock (t := 1) (id := 3) (c := .get 7) rfl rfl rfl)
  have h18 := h17.step (.access (t := 1) (id := 3) (c := .get 7) (acc := []) (r := .val b) (m' := [(7, b)]) rfl (by exact ⟨rfl, rfl⟩))
  have h19 := h18.step (.runlock (t := 1) (id := 3) (c := .get 7) (r := .val b) rfl rfl)
  have h20 := h19.step (.ret (t := 1) (id := 3) (c := .get 7) (r := .val b) rfl)
  exact ⟨_, h20, rfl⟩

theorem ex_reach : ∃ s : SyncKey.St Nat Bytes, Reach (SyncKey.syncmap same) s ∧ s.hist = exHist := ex_run _ _

theorem ex_serves : Serves exK exReq exHist := by
  intro i c h
  simp only [exHist, List.mem_cons, List.not_mem_nil, or_false, Event.inv.injEq, reduceCtorEq, false_or] at h
  rcases h with ⟨rfl, rfl⟩ | ⟨rfl, rfl⟩ | ⟨rfl, rfl⟩ | ⟨rfl, rfl⟩
  · exact exAsks 7 [1, 2]
  · rfl
  · exact exAsks 7 [1, 3]
  · rfl

theorem ex_fills : Fills exReq := by
  intro p u pw level rnd h
  unfold exReq at h
  split at h <;> cases h <;> rfl

/-- The first login is let in, by what may be the last change then. -/
example : answers exK (exReq 1) (.val (exRec [1, 2])) = .ret none := by
  obtain ⟨s, hs, he⟩ := ex_reach
  refine C182_right (req := exReq) (i := 1) (p0 := 0) exK_len ex_fills hs (he ▸ ex_serves) rfl (he ▸ by simp [exHist]) rfl
    ⟨.unit, .get 7, he ▸ ⟨[.inv 0 (.set 7 (exRec [1, 2]))], [], _, rfl⟩⟩ fun p hp => ?_
  rw [he] at hp
  obtain ⟨hc, ⟨c, hi⟩, hb, -⟩ := hp
  simp only [exHist, List.mem_cons, List.not_mem_nil, or_false, Event.inv.injEq, reduceCtorEq, false_or] at hi
  rcases hi with ⟨rfl, rfl⟩ | ⟨rfl, rfl⟩ | ⟨rfl, rfl⟩ | ⟨rfl, rfl⟩
  · exact ⟨3, exRnd, rfl⟩
  · exact hc.elim
  · exact (hb (.val (exRec [1, 2])) (.set 7 (exRec [1, 3])) ⟨[.inv 0 (.set 7 (exRec [1, 2])), .ret 0 .unit, .inv 1 (.get 7)], [], _, rfl⟩).elim
  · exact hc.elim

/-- The second one is refused. -/
example : answers exK (exReq 3) (.val (exRec [1, 3])) = .ret (some .hashMismatch) ∨ answers exK (exReq 3) (.val (exRec [1, 3])) = .ret (some .invalidPassHash) := by
  obtain ⟨s, hs, he⟩ := ex_reach
  refine C182_wrong (req := exReq) (i := 3) exK_len ex_fills hs (he ▸ ex_serves) rfl (he ▸ by simp [exHist]) fun p hp pw' level rnd hq hk => ?_
  rw [he] at hp
  obtain ⟨hc, ⟨c, hi⟩, hb, hl⟩ := hp
  simp only [exHist, List.mem_cons, List.not_mem_nil, or_false, Event.inv.injEq, reduceCtorEq, false_or] at hi
  rcases hi with ⟨rfl, rfl⟩ | ⟨rfl, rfl⟩ | ⟨rfl, rfl⟩ | ⟨rfl, rfl⟩
  · exact hl 2 rfl ⟨⟨.unit, .set 7 (exRec [1, 3]), [.inv 0 (.set 7 (exRec [1, 2]))], [.inv 1 (.get 7), .ret 1 (.val (exRec [1, 2]))], _, rfl⟩,
      ⟨.unit, .get 7, [.inv 0 (.set 7 (exRec [1, 2])), .ret 0 .unit, .inv 1 (.get 7), .ret 1 (.val (exRec [1, 2])), .inv 2 (.set 7 (exRec [1, 3]))], [], _, rfl⟩⟩
  · exact hc
  · cases hq
    obtain ⟨k, e1, e2⟩ := hk
    rw [← e2] at e1
    exact absurd e1 (by decide)
  · exact hc

/-- A level that is none of the four does not get to the map. -/
example : asks exK (.setPassword (7 : Nat) [1] 9 exRnd) = none := by
  simp only [asks]; rw [C70_bad_level exK exRnd [1] 9 (by decide)]

/-- The requests that ask the map are answered, when the scheduler runs every goroutine and the locks are handed on fairly. -/
theorem C182_all_return {e : Nat → FSt _ _ _ _} {who : Nat → Option Nat} (x : Exec (SyncKey.syncmap (K := U) (V := Bytes) same) e who)
    (fr : FairRun (SyncKey.syncmap same) e who) : MapFair.AllReturn fun n => (e n).s.hist := MapFair.C175_syncmap x fr

end Verif.UserStore
