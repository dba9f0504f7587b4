import Verif.PassChange.Lemmas
import Verif.UserStore.Props
/-!
# C183: changing a password with the old one
-/
namespace Verif.PassChange
open Verif.Conc Verif.Conc.RW Verif.PassHash Verif.UserStore Verif.Go
open Verif.SyncMap (Call Res)

variable {U : Type} [DecidableEq U] {K : Kdf} {req : Nat → Req U} {s : SyncKey.St U Bytes}

/-- A call that has returned was made. -/
theorem a_invoked (h : Reach (SyncKey.syncmap same) s) {i : Nat} {r : Res U Bytes} (hr : .ret i r ∈ s.hist) : ∃ c, .inv i c ∈ s.hist := by
  obtain ⟨S, _, lin⟩ := SyncKey.C106_linearizable same_pe h
  obtain ⟨c, hm⟩ := lin.returned _ _ hr
  exact ⟨c, lin.invoked _ hm⟩

/-- C183, what holds: a change goes through only if the old password has the key of one that was set for this user and may have been the current one when it was
looked up. -/
theorem C183_sound_partial (hK : ∀ p s t m th l, (K p s t m th l).length = l) (hf : Fills req) (h : Reach (SyncKey.syncmap same) s) (sv : Serves K req s.hist)
    {a : Change} {u : U} {old : Bytes} (ra : a.Runs K req s.hist u old) (hd : a.Done s.hist) :
    ∃ p pw' level rnd, req p = .setPassword u pw' level rnd ∧ SameKey K level rnd pw' old ∧ MayBeLast req s.hist u a.get p ∧ p ≠ a.set := by
  obtain ⟨c, hc⟩ := hd
  obtain ⟨r, hb, ha⟩ := ra.2.2 c hc
  obtain ⟨p, pw', level, rnd, h1, h2, h3⟩ := C182_sound hK hf h sv ra.1 hb.mem.1 ha
  exact ⟨p, pw', level, rnd, h1, h2, h3, fun e => h3.2.2.1 r c (e ▸ hb)⟩

/-- C183 for changes one after the other: when the new password of `a` was stored before `b` looked up the old one, `b` does not go through.
Missing: changes that overlap (`C183_refuted`). -/
theorem C183_after_partial (hK : ∀ p s t m th l, (K p s t m th l).length = l) (hf : Fills req) (h : Reach (SyncKey.syncmap same) s) (sv : Serves K req s.hist)
    {a b : Change} {u : U} {old : Bytes} {p0 : Nat} (t : Two K req s.hist u old p0 a b) (hb : ∃ r c, Before s.hist (.ret a.set r) (.inv b.get c)) :
    ¬ b.Done s.hist := by
  rintro ⟨c, hc⟩
  obtain ⟨r, hbb, ha⟩ := t.runsB.2.2 c hc
  have := C182_wrong hK hf h sv t.runsB.1 hbb.mem.1 fun p hp pw' level rnd hq hk => ?_
  · rw [ha] at this
    rcases this with h | h <;> cases h
  · rcases t.only p hp.1 with rfl | rfl | rfl
    · obtain ⟨new, l, rd, hs⟩ := t.runsA.2.1
      have hch : Changes u (req a.set) := by rw [hs]; rfl
      obtain ⟨r', c', hb'⟩ := hb
      obtain ⟨ca, hca⟩ := a_invoked h hb'.mem.1
      obtain ⟨r0, hb0⟩ := t.early a.set ca t.apart.2.1 hca
      exact hp.2.2.2 a.set hch ⟨⟨r0, ca, hb0⟩, r', c', hb'⟩
    · exact t.freshA _ _ _ _ hq hk
    · exact hp.2.2.1 r c hbb

/-- C183 for changes that do not overlap, as when the program holds a mutex of its own during each: not both go through.
Missing: changes that overlap (`C183_refuted`). -/
theorem C183_apart_partial (hK : ∀ p s t m th l, (K p s t m th l).length = l) (hf : Fills req) (h : Reach (SyncKey.syncmap same) s) (sv : Serves K req s.hist)
    {a b : Change} {u : U} {old : Bytes} {p0 : Nat} (t : Two K req s.hist u old p0 a b)
    (hb : (∃ r c, Before s.hist (.ret a.set r) (.inv b.get c)) ∨ ∃ r c, Before s.hist (.ret b.set r) (.inv a.get c)) :
    ¬ (a.Done s.hist ∧ b.Done s.hist) := by
  rintro ⟨h1, h2⟩
  rcases hb with hb | hb
  · exact C183_after_partial hK hf h sv t hb h2
  · exact C183_after_partial hK hf h sv ⟨t.first, t.early, t.runsB, t.runsA, t.freshB, t.freshA, ⟨t.apart.1.symm, t.apart.2.2, t.apart.2.1⟩,
      fun p hp => (t.only p hp).imp_right Or.symm⟩ hb h1

/-! ### Two changes at the same time -/

/-- Both look up the old password, then both store a new one. -/
theorem race_run (a b c : Bytes) : ∃ s : SyncKey.St Nat Bytes, Reach (SyncKey.syncmap same) s ∧
    s.hist = [.inv 0 (.set 7 a), .ret 0 .unit, .inv 1 (.get 7), .ret 1 (.val a), .inv 2 (.get 7), .ret 2 (.val a), .inv 3 (.set 7 b), .ret 3 .unit,
      .inv 4 (.set 7 c), .ret 4 .unit] := by
  have h1 := RW.Reach.init.step (RW.Step.invoke (g := SyncKey.syncmap (K := Nat) (V := Bytes) same) (s := RW.start _) (t := 0) (c := .set 7 a) rfl)
  have h2 := h1.step (.lock (t := 0) (id := 0) (c := .set 7 a) rfl rfl rfl rfl)
  have h3 := h2.step (.access (t := 0) (id := 0) (c := .set 7 a) (acc := []) (r := .unit) (m' := [(7, a)]) rfl (by exact ⟨rfl, rfl⟩))
  have h4 := h3.step (.unlock (t := 0) (id := 0) (c := .set 7 a) (r := .unit) rfl rfl)
  have h5 := h4.step (.ret (t := 0) (id := 0) (c := .set 7 a) (r := .unit) rfl)
  have h6 := h5.step (.invoke (t := 1) (c := .get 7) rfl)
  have h7 := h6.step (.rlock (t := 1) (id := 1) (c := .get 7) rfl rfl rfl)
  have h8 := h7.step (.access (t := 1) (id := 1) (c := .get 7) (acc := []) (r := .val a) (m' := [(7, a)]) rfl (by exact ⟨rfl, rfl⟩))
  have h9 := h8.step (.runlock (t := 1) (id := 1) (c := .get 7) (r := .val a) rfl rfl)
  have h10 := h9.step (.ret (t := 1) (id := 1) (c := .get 7) (r := .val a) rfl)
  have h11 := h10.step (.invoke (t := 2) (c := .get 7) rfl)
  have h12 := h11.step (.rlock (t := 2) (id := 2) (c := .get 7) rfl rfl rfl)
  have h13 := h12.step (.access (t := 2) (id := 2) (c := .get 7) (acc := []) (r := .val a) (m' := [(7, a)]) rfl (by exact ⟨rfl, rfl⟩))
  have h14 := h13.step (.runlock (t := 2) (id := 2) (c := .get 7) (r := .val a) rfl rfl)
  have h15 := h14.step (.ret (t := 2) (id := 2) (c := .get 7) (r := .val a) rfl)
  have h16 := h15.step (.invoke (t := 1) (c := .set 7 b) rfl)
  have h17 := h16.step (.lock (t := 1) (id := 3) (c := .set 7 b) rfl rfl rfl rfl)
  have h18 := h17.step (.access (t := 1) (id := 3) (c := .set 7 b) (acc := []) (r := .unit) (m' := [(7, b)]) rfl (by exact ⟨rfl, rfl⟩))
  have h19 := h18.step (.unlock (t := 1) (id := 3) (c := .set 7 b) (r := .unit) rfl rfl)
  have h20 := h19.step (.ret (t := 1) (id := 3) (c := .set 7 b) (r := .unit) rfl)
  have h21 := h20.step (.invoke (t := 2) (c := .set 7 c) rfl)
  have h22 := h21.step (.lock (t := 2) (id := 4) (c := .set 7 c) rfl rfl rfl rfl)
  have h23 := h22.step (.access (t := 2) (id := 4) (c := .set 7 c) (acc := []) (r := .unit) (m' := [(7, c)]) rfl (by exact ⟨rfl, rfl⟩))
  have h24 := h23.step (.unlock (t := 2) (id := 4) (c := .set 7 c) (r := .unit) rfl rfl)
  have h25 := h24.step (.ret (t := 2) (id := 4) (c := .set 7 c) (r := .unit) rfl)
  exact ⟨_, h25, rfl⟩

def raceReq : Nat → Req Nat
  | 0 => .setPassword 7 [1] 3 exRnd
  | 1 => .login 7 [1]
  | 2 => .login 7 [1]
  | 3 => .setPassword 7 [2] 3 exRnd
  | 4 => .setPassword 7 [3] 3 exRnd
  | _ => .login 7 [4]

def raceHist : List (Event (Call Nat Bytes) (Res Nat Bytes)) :=
  [.inv 0 (.set 7 (exRec [1])), .ret 0 .unit, .inv 1 (.get 7), .ret 1 (.val (exRec [1])), .inv 2 (.get 7), .ret 2 (.val (exRec [1])), .inv 3 (.set 7 (exRec [2])),
    .ret 3 .unit, .inv 4 (.set 7 (exRec [3])), .ret 4 .unit]

theorem race_serves : Serves exK raceReq raceHist := by
  intro i c h
  simp only [raceHist, List.mem_cons, List.not_mem_nil, or_false, Event.inv.injEq, reduceCtorEq, false_or] at h
  rcases h with ⟨rfl, rfl⟩ | ⟨rfl, rfl⟩ | ⟨rfl, rfl⟩ | ⟨rfl, rfl⟩ | ⟨rfl, rfl⟩
  · exact exAsks 7 [1]
  · rfl
  · rfl
  · exact exAsks 7 [2]
  · exact exAsks 7 [3]

theorem race_fills : Fills raceReq := by
  intro p u pw level rnd h
  unfold raceReq at h
  split at h <;> cases h <;> rfl

theorem race_accepts : answers exK (.login 7 [1] : Req Nat) (.val (exRec [1])) = .ret none := by
  show verify exK [1] (.of (exRec [1])) = _
  rw [verify_record exK [1] (prm := 2) (slt := List.replicate 16 5) (hsh := exK [1] (List.replicate 16 5) 4 37888 1 32) ⟨[], by simp [Slice.of, Slice.bytes, exRec], by decide⟩]
  decide

theorem race_fresh {pw : Bytes} (h : derive exK 2 pw (List.replicate 16 5) ≠ derive exK 2 [1] (List.replicate 16 5)) : ¬ SameKey exK 3 exRnd pw [1] :=
  fun ⟨_, e1, e2⟩ => h (e1.trans e2.symm)

theorem race_two : Two exK raceReq raceHist 7 [1] 0 ⟨1, 3⟩ ⟨2, 4⟩ where
  first := ⟨_, _, rfl⟩
  early := by
    intro j c hj h
    simp only [raceHist, List.mem_cons, List.not_mem_nil, or_false, Event.inv.injEq, reduceCtorEq, false_or] at h
    have hm : ∃ l2 l3, raceHist = [.inv 0 (.set 7 (exRec [1]))] ++ .ret 0 .unit :: (l2 ++ .inv j c :: l3) := by
      rcases h with ⟨rfl, rfl⟩ | ⟨rfl, rfl⟩ | ⟨rfl, rfl⟩ | ⟨rfl, rfl⟩ | ⟨rfl, rfl⟩
      · exact absurd rfl hj
      · exact ⟨[], _, rfl⟩
      · exact ⟨[.inv 1 (.get 7), .ret 1 (.val (exRec [1]))], _, rfl⟩
      · exact ⟨[.inv 1 (.get 7), .ret 1 (.val (exRec [1])), .inv 2 (.get 7), .ret 2 (.val (exRec [1]))], _, rfl⟩
      · exact ⟨[.inv 1 (.get 7), .ret 1 (.val (exRec [1])), .inv 2 (.get 7), .ret 2 (.val (exRec [1])), .inv 3 (.set 7 (exRec [2])), .ret 3 .unit], _, rfl⟩
    obtain ⟨l2, l3, e⟩ := hm
    exact ⟨.unit, _, l2, l3, e⟩
  runsA := by
    refine ⟨rfl, ⟨_, _, _, rfl⟩, fun c h => ⟨.val (exRec [1]), ?_, race_accepts⟩⟩
    simp [raceHist] at h
    subst h
    exact ⟨[.inv 0 (.set 7 (exRec [1])), .ret 0 .unit, .inv 1 (.get 7)], [.inv 2 (.get 7), .ret 2 (.val (exRec [1]))], _, rfl⟩
  runsB := by
    refine ⟨rfl, ⟨_, _, _, rfl⟩, fun c h => ⟨.val (exRec [1]), ?_, race_accepts⟩⟩
    simp [raceHist] at h
    subst h
    exact ⟨[.inv 0 (.set 7 (exRec [1])), .ret 0 .unit, .inv 1 (.get 7), .ret 1 (.val (exRec [1])), .inv 2 (.get 7)], [.inv 3 (.set 7 (exRec [2])), .ret 3 .unit], _, rfl⟩
  freshA := by intro u new level rnd h; cases h; exact race_fresh (by decide)
  freshB := by intro u new level rnd h; cases h; exact race_fresh (by decide)
  apart := by decide
  only := by
    intro p h
    unfold raceReq at h
    split at h
    · exact .inl rfl
    · exact h.elim
    · exact h.elim
    · exact .inr (.inl rfl)
    · exact .inr (.inr rfl)
    · exact h.elim

/-- **C183, refuted.** Two changes with the same old password go through when both look it up before either stores its new one. -/
theorem C183_refuted : ¬ C183_full := by
  intro hfull
  obtain ⟨s, hs, he⟩ := race_run (exRec [1]) (exRec [2]) (exRec [3])
  change s.hist = raceHist at he
  refine hfull exK exK_len raceReq race_fills s hs (he ▸ race_serves) 7 [1] 0 ⟨1, 3⟩ ⟨2, 4⟩ (he ▸ race_two) ⟨⟨.set 7 (exRec [2]), ?_⟩, ⟨.set 7 (exRec [3]), ?_⟩⟩ <;>
    rw [he] <;> simp [raceHist]

/-- In that run the theorem on single changes applies to both. -/
example : ∃ s : SyncKey.St Nat Bytes, Reach (SyncKey.syncmap same) s ∧ ∃ p pw' level rnd, raceReq p = .setPassword 7 pw' level rnd ∧ SameKey exK level rnd pw' [1] ∧
    MayBeLast raceReq s.hist 7 2 p ∧ p ≠ 4 := by
  obtain ⟨s, hs, he⟩ := race_run (exRec [1]) (exRec [2]) (exRec [3])
  change s.hist = raceHist at he
  exact ⟨s, hs, C183_sound_partial (a := ⟨2, 4⟩) exK_len race_fills hs (he ▸ race_serves) (he ▸ race_two.runsB) ⟨.set 7 (exRec [3]), by rw [he]; simp [raceHist]⟩⟩

/-! ### With a mutex of the program -/

variable {u : U} {old : Bytes} {l : Nat → Loc} {q : Sect.St (List (U × Bytes)) (List (U × Bytes)) (Call U Bytes) Loc}

/-- C183 under a mutex that the program holds during each change: of any number of goroutines that change the password with the same old one, at most one goes
through, under every schedule. Missing: without the mutex (`C183_refuted`). -/
theorem C183_mutex_partial (hK : ∀ p s t m th l, (K p s t m th l).length = l) (hb : Begin K old l) (h : Sect.Reach (SyncKey.syncmap same) (changing K u) l q)
    {t t' : Nat} (ht : q.pc t = .out) (ht' : q.pc t' = .out) (e : q.loc t = .yes) (e' : q.loc t' = .yes) : t = t' := by
  obtain ⟨m, l', h1, h2, -⟩ := Sect.serial_sim (o' := SyncKey.histObj same) (fun m hist => m = SyncAny.run same hist) SyncKey.readsOnly honest
    (fun v c x v' hw st => by cases c <;> first | exact st.2 | (simp [SyncKey.syncmap, SyncMap.mode] at hw))
    (fun m m' c r hist e st => by
      subst e
      obtain ⟨h', a1, a2⟩ := SyncKey.sim_step same_pe hist c r m' st
      exact ⟨h', a1, a2⟩) rfl h
  exact (inv hK hb h1).one t t' ((h2 t ht).symm.trans e) ((h2 t' ht').symm.trans e')

/-- Whenever nobody is in a change, the record of the one that went through is the one of its own new password, and it lets this password in. -/
theorem C183_mutex_winner (hK : ∀ p s t m th l, (K p s t m th l).length = l) (hb : Begin K old l) (h : Sect.Reach (SyncKey.syncmap same) (changing K u) l q)
    (hw : q.writer = none) {t : Nat} (ht : q.pc t = .out) (e : q.loc t = .yes) :
    ∃ new level rnd r, l t = .ask old new level rnd ∧ SyncAny.find same q.m u = some r ∧ verify K new (.of r) = .ret none ∧ verify K old (.of r) = .ret (some .hashMismatch) := by
  obtain ⟨m, l', h1, h2, h3, -⟩ := Sect.serial_sim (o' := SyncKey.histObj same) (fun m hist => m = SyncAny.run same hist) SyncKey.readsOnly honest
    (fun v c x v' hw st => by cases c <;> first | exact st.2 | (simp [SyncKey.syncmap, SyncMap.mode] at hw))
    (fun m m' c r hist e st => by
      subst e
      obtain ⟨h', a1, a2⟩ := SyncKey.sim_step same_pe hist c r m' st
      exact ⟨h', a1, a2⟩) rfl h
  obtain ⟨new, level, rnd, r, e1, e2, e3⟩ := (winner hK hb h1).2 t ((h2 t ht).symm.trans e)
  have ht0 : t ≠ 0 := by
    rintro rfl
    obtain ⟨r, e0⟩ := hb.1
    rw [e0] at e1; cases e1
  obtain ⟨hs, hk⟩ : (rnd 16).1.length = 16 ∧ ¬ SameKey K level rnd new old := by
    rcases hb.2 t ht0 with e' | ⟨_, _, _, e', x⟩ <;> rw [e1] at e' <;> cases e'
    exact x
  have ha : asks K (.setPassword u new level rnd) = some (.set u r) := by simp only [asks, e2]
  obtain ⟨x, hx, hd⟩ := decides hK ha (u := u) rfl (fun _ _ _ _ e => by cases e; exact hs) new
  obtain ⟨y, hy, hd'⟩ := decides hK ha (u := u) rfl (fun _ _ _ _ e => by cases e; exact hs) old
  refine ⟨new, level, rnd, r, e1, ?_, ?_, ?_⟩
  · rw [h3 hw, SyncKey.find_lookup same_pe]; exact e3
  · rw [← hd.1 (sameKey_self hK ha hs)]; exact hx
  · rw [← hd'.2 hk]; exact hy

/-- Whenever nobody is in a change and nobody has gone through, the first record is still there: changes that are refused change nothing. -/
theorem C183_mutex_refused (hK : ∀ p s t m th l, (K p s t m th l).length = l) (hb : Begin K old l) (h : Sect.Reach (SyncKey.syncmap same) (changing K u) l q)
    (hw : q.writer = none) {r0 : Bytes} (h0 : l 0 = .give r0) (hout : q.pc 0 = .out) (hg : q.loc 0 = .gave) (hy : ∀ t, q.loc t ≠ .yes) :
    SyncAny.find same q.m u = some r0 := by
  obtain ⟨m, l', h1, h2, h3, h4⟩ := Sect.serial_sim (o' := SyncKey.histObj same) (fun m hist => m = SyncAny.run same hist) SyncKey.readsOnly honest
    (fun v c x v' hw st => by cases c <;> first | exact st.2 | (simp [SyncKey.syncmap, SyncMap.mode] at hw))
    (fun m m' c r hist e st => by
      subst e
      obtain ⟨h', a1, a2⟩ := SyncKey.sim_step same_pe hist c r m' st
      exact ⟨h', a1, a2⟩) rfl h
  rw [h3 hw, SyncKey.find_lookup same_pe]
  refine unchanged hK hb h0 h1 (fun t (e : l' t = .yes) => ?_) ((h2 0 hout).symm.trans hg)
  cases hp : q.pc t with
  | out => exact hy t ((h2 t hp).trans e)
  | inside w =>
    have := (h4 t w (by rw [hp]; rfl)).1
    rw [e] at this; cases this
  | busy w c acc =>
    have := (h4 t w (by rw [hp]; rfl)).1
    rw [e] at this; cases this

/-- They come to an end: finitely many goroutines make finitely many steps, and when none can make one, all have had their answers and have unlocked. -/
theorem C183_mutex_ends {N : Nat} (hN : ∀ t, N ≤ t → (changing K u).enters (l t) = none) (h : Sect.Reach (SyncKey.syncmap same) (changing K u) l q) :
    Acc (fun s' s => ∃ t, Sect.Step (SyncKey.syncmap same) (changing K u) t s s') q ∧
    ((¬ ∃ t s', Sect.Step (SyncKey.syncmap same) (changing K u) t q s') → ∀ t, q.pc t = .out ∧ (changing K u).enters (q.loc t) = none) :=
  ⟨Sect.ends_bounded (μ := fun m _ acc => m.length - acc.length) SyncKey.readsOnly honest (fun _ _ _ _ _ st => SyncKey.shrinks _ _ _ _ st) bounded hN h,
    Sect.stuck SyncKey.readsOnly honest SyncKey.live h⟩

/-- Goroutine 0 stores the record of [1], goroutines 1 and 2 change it to [2] and [3]. -/
def exLoc : Nat → Loc
  | 0 => .give (exRec [1])
  | 1 => .ask [1] [2] 3 exRnd
  | 2 => .ask [1] [3] 3 exRnd
  | _ => .no

theorem ex_begin : Begin exK [1] exLoc := by
  refine ⟨⟨_, rfl⟩, fun t ht => ?_⟩
  match t with
  | 0 => exact absurd rfl ht
  | 1 => exact .inr ⟨_, _, _, rfl, rfl, race_fresh (by decide)⟩
  | 2 => exact .inr ⟨_, _, _, rfl, rfl, race_fresh (by decide)⟩
  | t + 3 => exact .inl rfl

theorem ex_next (new : Bytes) : next exK [1] new 3 exRnd (exRec [1]) = .put (exRec new) := by
  have h1 : verify exK [1] (.of (exRec [1])) = .ret none := race_accepts
  have h2 := exAsks 7 new
  simp only [asks] at h2
  simp only [next, h1]
  split at h2
  · rename_i e; cases h2; rw [e]
  · cases h2

theorem ex_refuse : next exK [1] [3] 3 exRnd (exRec [2]) = .no := by
  have h1 : verify exK [1] (.of (exRec [2])) = .ret (some .hashMismatch) := by
    rw [verify_record exK [1] (prm := 2) (slt := List.replicate 16 5) (hsh := exK [2] (List.replicate 16 5) 4 37888 1 32)
      ⟨[], by simp [Slice.of, Slice.bytes, exRec], by decide⟩]
    decide
  simp only [next, h1]

/-- One after the other: the first change goes through, the second does not. -/
example : ∃ q, Sect.Reach (SyncKey.syncmap (V := Bytes) (same (U := Nat))) (changing exK 7) exLoc q ∧ (∀ t, q.pc t = .out) ∧ q.writer = none ∧
    q.loc 1 = .yes ∧ q.loc 2 = .no := by
  have h := Sect.SerReach.start (o := seqObj (SyncKey.syncmap (V := Bytes) (same (U := Nat)))) (p := changing exK 7) (l := exLoc)
  replace h := h.step (t := 0) (.mk (w := true) (m' := [(7, exRec [1])]) (q := .gave) rfl (.single ⟨.set 7 (exRec [1]), .unit, rfl, ⟨[], .refl, ⟨rfl, rfl⟩⟩, rfl⟩) rfl nofun)
  replace h := h.step (t := 1) (.mk (w := true) (m' := [(7, exRec [2])]) (q := .yes) rfl
    (.tail (.single (b := ([(7, exRec [1])], .put (exRec [2]))) ⟨.get 7, .val (exRec [1]), rfl, ⟨[], .refl, ⟨rfl, rfl⟩⟩, (ex_next [2]).symm⟩)
      ⟨.set 7 (exRec [2]), .unit, rfl, ⟨[], .refl, ⟨rfl, rfl⟩⟩, rfl⟩) rfl nofun)
  replace h := h.step (t := 2) (.mk (w := true) (m' := [(7, exRec [2])]) (q := .no) rfl
    (.single ⟨.get 7, .val (exRec [2]), rfl, ⟨[], .refl, ⟨rfl, rfl⟩⟩, ex_refuse.symm⟩) rfl nofun)
  exact ⟨_, Sect.sequential h, fun _ => rfl, rfl, rfl, rfl⟩

/-- Before a change, the first record is there. -/
example : ∃ q, Sect.Reach (SyncKey.syncmap (V := Bytes) (same (U := Nat))) (changing exK 7) exLoc q ∧ SyncAny.find same q.m 7 = some (exRec [1]) := by
  have h := Sect.SerReach.start (o := seqObj (SyncKey.syncmap (V := Bytes) (same (U := Nat)))) (p := changing exK 7) (l := exLoc)
  replace h := h.step (t := 0) (.mk (w := true) (m' := [(7, exRec [1])]) (q := .gave) rfl (.single ⟨.set 7 (exRec [1]), .unit, rfl, ⟨[], .refl, ⟨rfl, rfl⟩⟩, rfl⟩) rfl nofun)
  refine ⟨_, Sect.sequential h, C183_mutex_refused exK_len ex_begin (Sect.sequential h) rfl rfl rfl rfl fun t => ?_⟩
  match t with
  | 0 => exact nofun
  | 1 => exact nofun
  | 2 => exact nofun
  | t + 3 => exact nofun

/-! ### One change after the other -/

def serialReq : Nat → Req Nat
  | 0 => .setPassword 7 [1, 2] 3 exRnd
  | 1 => .login 7 [1, 2]
  | 2 => .setPassword 7 [1, 3] 3 exRnd
  | 3 => .login 7 [1, 2]
  | 4 => .setPassword 7 [1, 4] 3 exRnd
  | _ => .login 7 [4]

theorem serial_two : Two exK serialReq exHist 7 [1, 2] 0 ⟨1, 2⟩ ⟨3, 4⟩ where
  first := ⟨_, _, rfl⟩
  early := by
    intro j c hj h
    simp only [exHist, List.mem_cons, List.not_mem_nil, or_false, Event.inv.injEq, reduceCtorEq, false_or] at h
    have hm : ∃ l2 l3, exHist = [.inv 0 (.set 7 (exRec [1, 2]))] ++ .ret 0 .unit :: (l2 ++ .inv j c :: l3) := by
      rcases h with ⟨rfl, rfl⟩ | ⟨rfl, rfl⟩ | ⟨rfl, rfl⟩ | ⟨rfl, rfl⟩
      · exact absurd rfl hj
      · exact ⟨[], _, rfl⟩
      · exact ⟨[.inv 1 (.get 7), .ret 1 (.val (exRec [1, 2]))], _, rfl⟩
      · exact ⟨[.inv 1 (.get 7), .ret 1 (.val (exRec [1, 2])), .inv 2 (.set 7 (exRec [1, 3])), .ret 2 .unit], _, rfl⟩
    obtain ⟨l2, l3, e⟩ := hm
    exact ⟨.unit, _, l2, l3, e⟩
  runsA := by
    refine ⟨rfl, ⟨_, _, _, rfl⟩, fun c h => ⟨.val (exRec [1, 2]), ?_, ?_⟩⟩
    · simp [exHist] at h
      subst h
      exact ⟨[.inv 0 (.set 7 (exRec [1, 2])), .ret 0 .unit, .inv 1 (.get 7)], [], _, rfl⟩
    · show verify exK [1, 2] (.of (exRec [1, 2])) = _
      rw [verify_record exK [1, 2] (prm := 2) (slt := List.replicate 16 5) (hsh := exK [1, 2] (List.replicate 16 5) 4 37888 1 32)
        ⟨[], by simp [Slice.of, Slice.bytes, exRec], by decide⟩]
      decide
  runsB := ⟨rfl, ⟨_, _, _, rfl⟩, fun c h => by simp [exHist] at h⟩
  freshA := by intro u new level rnd h ⟨k, e1, e2⟩; cases h; exact absurd (e1.trans e2.symm) (by decide)
  freshB := by intro u new level rnd h ⟨k, e1, e2⟩; cases h; exact absurd (e1.trans e2.symm) (by decide)
  apart := by decide
  only := by
    intro p h
    unfold serialReq at h
    split at h
    · exact .inl rfl
    · exact h.elim
    · exact .inr (.inl rfl)
    · exact h.elim
    · exact .inr (.inr rfl)
    · exact h.elim

/-- The second change has looked up the password that the first one stored. -/
example : ∃ s : SyncKey.St Nat Bytes, Reach (SyncKey.syncmap same) s ∧ (Change.mk 1 2).Done s.hist ∧ ¬ (Change.mk 3 4).Done s.hist := by
  obtain ⟨s, hs, he⟩ := ex_reach
  have sv : Serves exK serialReq s.hist := by
    rw [he]
    intro i c h
    have := ex_serves i c h
    simp only [exHist, List.mem_cons, List.not_mem_nil, or_false, Event.inv.injEq, reduceCtorEq, false_or] at h
    rcases h with ⟨rfl, rfl⟩ | ⟨rfl, rfl⟩ | ⟨rfl, rfl⟩ | ⟨rfl, rfl⟩ <;> exact this
  refine ⟨s, hs, ⟨.set 7 (exRec [1, 3]), by rw [he]; simp [exHist]⟩, C183_after_partial exK_len ?_ hs sv (he ▸ serial_two)
    ⟨.unit, .get 7, he ▸ ⟨[.inv 0 (.set 7 (exRec [1, 2])), .ret 0 .unit, .inv 1 (.get 7), .ret 1 (.val (exRec [1, 2])), .inv 2 (.set 7 (exRec [1, 3]))], [], _, rfl⟩⟩⟩
  intro p u pw level rnd h
  unfold serialReq at h
  split at h <;> cases h <;> rfl

end Verif.PassChange
