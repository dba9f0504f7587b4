import Verif.SklPrio.Lemmas
/-!
# C180: a skip-list map as a priority queue that goroutines share
-/
namespace Verif.SklPrio
open Verif.Go Verif.Conc Verif.Conc.RW Verif.Skl
open Verif.Linked (Res)
open Verif.SklShare (Mem)

variable {K V : Type} [GoOrdered K] [LawfulOrdered K] [DecidableEq K] [Inhabited K] [Inhabited V] {seed : BitVec 64}

/-- The states of the system. -/
abbrev State (K V : Type) [GoOrdered K] [LawfulOrdered K] [DecidableEq K] [Inhabited K] [Inhabited V] (seed : BitVec 64) : Type :=
  RW.St (Mem K V seed) Unit (Call K V) (Res (K × V))

/-- **C180.** In every schedule the calls of all goroutines behave like calls of one priority queue, made one after the other at moments
between their start and their return: `pop` takes the entry with the smallest key that is there. -/
theorem C180_linearizable {s : State K V seed} (h : Reach (queue K V seed) s) : Linearizable (prio K V) s.hist :=
  RW.sim Agree agree_new (fun m m' c r l ag st => sim_step m m' c r l ag (HandOut.behind_seq st)) (RW.linearizable HandOut.behind_reads h)

/-- **C180, exactly once.** Every entry that was accepted is handed out at most once, nothing else is handed out, and when a `pop` finds nothing all
that had been accepted before it has been handed out. -/
theorem C180_once {s : State K V seed} (h : Reach (queue K V seed) s) : ∃ M, HandOut.Accounts kind s.hist M :=
  HandOut.accounts (prio_bag (C180_linearizable h)) (unique_inv HandOut.behind_reads h)

/-- **C180, all calls return,** however many there are. -/
theorem C180_all_return {e : Nat → FSt _ _ _ _} {who : Nat → Option Nat} (x : Exec (queue K V seed) e who) (fr : FairRun (queue K V seed) e who) {n id : Nat} {c : Call K V}
    (h : Event.inv id c ∈ (e n).s.hist) : ∃ m r, n ≤ m ∧ Event.ret id r ∈ (e m).s.hist :=
  all_calls_return HandOut.behind_reads (HandOut.behind_live total) (μ := fun _ _ _ => 0) (fun s c a a' _ h => HandOut.behind_shrinks s c a a' h) x fr h

/-- **C180, the most urgent first.** A `pop` that starts after an entry was accepted returns an entry with a smaller key, or the entry is taken: by this `pop`, or by another
that started before this one returned. -/
theorem C180_first {s : State K V seed} (h : Reach (queue K V seed) s) {p q : Nat} {k : K} {v : V} {r : Res (K × V)} (hp : Event.inv p (.push k v) ∈ s.hist)
    (hb : Before s.hist (.ret p (.bool true)) (.inv q .pop)) (hq : Event.ret q r ∈ s.hist) :
    Smaller k r ∨ ∃ q', TakenBy s.hist (k, v) p q q' := by
  obtain ⟨S, l, lin⟩ := C180_linearizable h
  have un := unique_inv HandOut.behind_reads h
  obtain ⟨c1, m1⟩ := lin.returned _ _ hb.mem.1
  obtain ⟨c2, m2⟩ := lin.returned _ _ hq
  have e1 := un _ _ _ (lin.invoked _ m1) hp
  have e2 := un _ _ _ (lin.invoked _ m2) hb.mem.2
  simp only at e1 e2
  subst e1 e2
  obtain ⟨a, b, c, hS⟩ := lin.realtime _ m1 _ m2 _ _ hb
  have legal := lin.legal
  rw [show S = ((a ++ [(p, Call.push k v, Res.bool true)]) ++ b) ++ [(q, .pop, r)] ++ c by rw [hS]; simp] at legal
  obtain ⟨l2, legal⟩ := legal_split legal
  obtain ⟨l1, legal, st⟩ := legal_last legal
  have put : ∀ l', Legal (prio K V) (a ++ [(p, Call.push k v, Res.bool true)]) l' → (k, v) ∈ l' := by
    intro l' hl
    obtain ⟨l0, -, st⟩ := legal_last hl
    rcases st with ⟨-, e, -⟩ | ⟨-, -, hp⟩
    · cases e
    · exact hp.mem_iff.2 (by simp)
  have o : Before S (p, Call.push k v, Res.bool true) (q, .pop, r) := ⟨a, b, c, hS⟩
  rcases stays put legal with hm | ⟨q', hq'⟩
  · rcases st with ⟨-, rfl, -⟩ | ⟨y, rfl, hy, lt⟩
    · cases hm
    · rcases List.mem_cons.1 (hy.mem_iff.1 hm) with rfl | hm
      · refine .inr ⟨q, lin.invoked _ m2, fun r' hr' => ?_, fun r' c' hb' => ?_, fun r' c' hb' => ?_⟩
        · obtain ⟨c', hc'⟩ := lin.returned _ _ hr'
          have := List.inj_on_of_nodup_map lin.once hc' m2 rfl
          cases this
          rfl
        · exact HandOut.before_asymm lin.once o (lin.realtime _ m2 _ m1 r' c' hb')
        · have := lin.realtime _ m2 _ m2 r' c' hb'
          exact HandOut.before_asymm lin.once this this
      · exact .inl ⟨y.1, y.2, rfl, lt _ hm⟩
  · obtain ⟨b1, b2, rfl⟩ := List.append_of_mem hq'
    have m3 : (q', Call.pop, Res.val (k, v)) ∈ S := by rw [hS]; simp
    have o1 : Before S (p, Call.push k v, Res.bool true) (q', .pop, .val (k, v)) := ⟨a, b1, b2 ++ (q, .pop, r) :: c, by rw [hS]; simp⟩
    have o2 : Before S (q', Call.pop, .val (k, v)) (q, .pop, r) := ⟨a ++ (p, .push k v, .bool true) :: b1, b2, c, by rw [hS]; simp⟩
    refine .inr ⟨q', lin.invoked _ m3, fun r' hr' => ?_, fun r' c' hb' => ?_, fun r' c' hb' => ?_⟩
    · obtain ⟨c', hc'⟩ := lin.returned _ _ hr'
      have := List.inj_on_of_nodup_map lin.once hc' m3 rfl
      cases this
      rfl
    · exact HandOut.before_asymm lin.once o1 (lin.realtime _ m3 _ m1 r' c' hb')
    · exact HandOut.before_asymm lin.once o2 (lin.realtime _ m2 _ m3 r' c' hb')

/-- **C180, in order.** When of two `pop` calls, one after the other, the second returns a smaller key, then the entry was put in by a call that had not returned when the first
started. So what is popped when all has been put in is in ascending order. -/
theorem C180_order {s : State K V seed} (h : Reach (queue K V seed) s) {q1 q2 : Nat} {e1 e2 : K × V} (i1 : Event.inv q1 .pop ∈ s.hist)
    (hb : Before s.hist (.ret q1 (.val e1)) (.inv q2 .pop)) (hq : Event.ret q2 (.val e2) ∈ s.hist) :
    GoOrdered.lt e1.1 e2.1 = true ∨
    ∃ p, Event.inv p (.push e2.1 e2.2) ∈ s.hist ∧ (∀ r c, ¬ Before s.hist (.ret p r) (.inv q1 c)) ∧ ∀ r c, ¬ Before s.hist (.ret q2 r) (.inv p c) := by
  by_cases hlt : GoOrdered.lt e1.1 e2.1 = true
  · exact .inl hlt
  right
  obtain ⟨S, l, lin⟩ := C180_linearizable h
  have un := unique_inv HandOut.behind_reads h
  obtain ⟨c1, m1⟩ := lin.returned _ _ hb.mem.1
  obtain ⟨c2, m2⟩ := lin.returned _ _ hq
  have e1' := un _ _ _ (lin.invoked _ m1) i1
  have e2' := un _ _ _ (lin.invoked _ m2) hb.mem.2
  simp only at e1' e2'
  subst e1' e2'
  obtain ⟨a, b, c, hS⟩ := lin.realtime _ m1 _ m2 _ _ hb
  have legal := lin.legal
  rw [show S = ((a ++ [(q1, Call.pop, Res.val e1)]) ++ b) ++ [(q2, .pop, .val e2)] ++ c by rw [hS]; simp] at legal
  obtain ⟨l2, legal⟩ := legal_split legal
  obtain ⟨l1, legal, st⟩ := legal_last legal
  have gone : ∀ l', Legal (prio K V) (a ++ [(q1, Call.pop, Res.val e1)]) l' → e2 ∉ l' := by
    intro l' hl hm
    obtain ⟨l0, -, st⟩ := legal_last hl
    rcases st with ⟨e, -⟩ | ⟨y, e, -, lt⟩
    · cases e
    · cases e
      exact hlt (lt _ hm)
  rcases st with ⟨e, -⟩ | ⟨y, e, hy, -⟩
  · cases e
  cases e
  obtain ⟨p, hp⟩ := came gone legal (hy.mem_iff.2 (by simp))
  obtain ⟨b1, b2, rfl⟩ := List.append_of_mem hp
  have m3 : (p, Call.push e2.1 e2.2, Res.bool true) ∈ S := by rw [hS]; simp
  have o1 : Before S (q1, Call.pop, .val e1) (p, .push e2.1 e2.2, .bool true) := ⟨a, b1, b2 ++ (q2, .pop, .val e2) :: c, by rw [hS]; simp⟩
  have o2 : Before S (p, Call.push e2.1 e2.2, Res.bool true) (q2, .pop, .val e2) := ⟨a ++ (q1, .pop, .val e1) :: b1, b2, c, by rw [hS]; simp⟩
  exact ⟨p, lin.invoked _ m3, fun r' c' hb' => HandOut.before_asymm lin.once o1 (lin.realtime _ m3 _ m1 r' c' hb'),
    fun r' c' hb' => HandOut.before_asymm lin.once o2 (lin.realtime _ m2 _ m3 r' c' hb')⟩

/-- In a fair execution there is a moment at which all calls of a list have returned. -/
theorem returned_by {e : Nat → FSt _ _ _ _} {who : Nat → Option Nat} (x : Exec (queue K V seed) e who) (fr : FairRun (queue K V seed) e who) {n : Nat} (ids : List Nat)
    (h : ∀ q ∈ ids, ∃ c, Event.inv q c ∈ (e n).s.hist) : ∃ m, n ≤ m ∧ ∀ q ∈ ids, ∃ r, Event.ret q r ∈ (e m).s.hist := by
  induction ids with
  | nil => exact ⟨n, Nat.le_refl _, nofun⟩
  | cons q ids ih =>
    obtain ⟨m1, h1, h2⟩ := ih fun q hq => h q (List.mem_cons_of_mem _ hq)
    obtain ⟨c, hc⟩ := h q (by simp)
    obtain ⟨m2, r, h3, h4⟩ := C180_all_return x fr hc
    refine ⟨max m1 m2, by omega, fun q' hq' => ?_⟩
    rcases List.mem_cons.1 hq' with rfl | hq'
    · exact ⟨r, x.up (Nat.le_max_right ..) h4⟩
    · obtain ⟨r', hr'⟩ := h2 q' hq'
      exact ⟨r', x.up (Nat.le_max_left ..) hr'⟩

/-- **C180, served.** In a fair execution an entry that was accepted is handed out when there are, after that, more `pop` calls than there are calls at all that put in smaller
keys. -/
theorem C180_served {e : Nat → FSt _ _ _ _} {who : Nat → Option Nat} (x : Exec (queue K V seed) e who) (fr : FairRun (queue K V seed) e who) {N n p : Nat} {k : K} {v : V}
    (h1 : Event.inv p (.push k v) ∈ (e N).s.hist) (h2 : Event.ret p (.bool true) ∈ (e N).s.hist) {B qs : List Nat}
    (hB : ∀ m p' k' v', Event.inv p' (.push k' v') ∈ (e m).s.hist → GoOrdered.lt k' k = true → p' ∈ B) (hd : qs.Nodup) (hl : B.length < qs.length)
    (n1 : ∀ q ∈ qs, Event.inv q .pop ∉ (e N).s.hist) (n2 : ∀ q ∈ qs, Event.inv q .pop ∈ (e n).s.hist) :
    ∃ m q, Event.inv q .pop ∈ (e m).s.hist ∧ Event.ret q (.val (k, v)) ∈ (e m).s.hist ∧ ∀ r c, ¬ Before (e m).s.hist (.ret q r) (.inv p c) := by
  by_contra hno
  -- all of them have returned
  obtain ⟨m1, hm1, r1⟩ := returned_by x fr qs fun q hq => ⟨_, n2 q hq⟩
  -- and all that had been called by then
  obtain ⟨m2, hm2, r2⟩ := returned_by x fr (n := m1) ((e m1).s.hist.filterMap fun | .inv q _ => some q | .ret _ _ => none) (by
    intro q hq
    obtain ⟨ev, hev, he⟩ := List.mem_filterMap.1 hq
    cases ev with
    | inv q' c => cases he; exact ⟨c, hev⟩
    | ret q' r => cases he)
  have hNn : ∀ q ∈ qs, N ≤ m2 := fun q hq => by
    by_contra hc
    exact n1 q hq (x.up (by omega) (n2 q hq))
  have small : ∀ q ∈ qs, ∃ k' v', Event.ret q (.val (k', v')) ∈ (e m2).s.hist ∧ GoOrdered.lt k' k = true := by
    intro q hq
    have hN := hNn q hq
    obtain ⟨r, hr⟩ := r1 q hq
    obtain ⟨t, ht⟩ := x.grows hN
    have hb : Before (e m2).s.hist (.ret p (.bool true)) (.inv q .pop) := by
      have hi : Event.inv q .pop ∈ t := by
        have := x.up (m := m2) (by omega) (n2 q hq)
        rw [ht] at this
        exact (List.mem_append.1 this).resolve_left (n1 q hq)
      obtain ⟨a1, a2, ha⟩ := List.append_of_mem h2
      obtain ⟨b1, b2, hb⟩ := List.append_of_mem hi
      exact ⟨a1, a2 ++ b1, b2, by rw [ht, ha, hb]; simp⟩
    rcases C180_first (x.reach m2) (x.up hN h1) hb (x.up hm2 hr) with ⟨k', v', rfl, lt⟩ | ⟨q', i, ret, np, nq⟩
    · exact ⟨k', v', x.up hm2 hr, lt⟩
    · exfalso
      have hi : Event.inv q' .pop ∈ (e m1).s.hist := by
        by_contra hc
        obtain ⟨t', ht'⟩ := x.grows hm2
        rw [ht'] at i
        obtain ⟨b1, b2, hb⟩ := List.append_of_mem ((List.mem_append.1 i).resolve_left hc)
        obtain ⟨a1, a2, ha⟩ := List.append_of_mem hr
        exact nq r .pop ⟨a1, a2 ++ b1, b2, by rw [ht', ha, hb]; simp⟩
      obtain ⟨r', hr'⟩ := r2 q' (List.mem_filterMap.2 ⟨_, hi, rfl⟩)
      have := ret r' hr'
      subst this
      exact hno ⟨m2, q', i, hr', np⟩
  obtain ⟨M, ac⟩ := C180_once (x.reach m2)
  have src : ∀ q ∈ qs, ∃ p', M q p' ∧ p' ∈ B := by
    intro q hq
    obtain ⟨k', v', hr, lt⟩ := small q hq
    obtain ⟨p', hp'⟩ := ac.sound q _ ⟨.pop, rfl, x.up (by omega) (n2 q hq)⟩ hr
    obtain ⟨-, w, ⟨⟨c, hc, hi⟩, -⟩, hw⟩ := ac.gives q p' hp'
    have := hw _ hr
    cases this
    cases c with
    | push k1 v1 => cases hc; exact ⟨p', hp', hB _ _ _ _ hi lt⟩
    | pop => cases hc
    | peek => cases hc
    | len => cases hc
  classical
  let f : Nat → Nat := fun q => if h : ∃ p', M q p' ∧ p' ∈ B then h.choose else 0
  have hf : ∀ q ∈ qs, M q (f q) ∧ f q ∈ B := fun q hq => by
    have := src q hq
    rw [show f q = this.choose from dif_pos this]
    exact this.choose_spec
  have nd : (qs.map f).Nodup := List.Nodup.map_on (fun q hq q' hq' he => ac.once _ _ _ (hf q hq).1 (he ▸ (hf q' hq').1)) hd
  have sub : qs.map f ⊆ B := fun y hy => by
    obtain ⟨q, hq, rfl⟩ := List.mem_map.1 hy
    exact (hf q hq).2
  have := (nd.subperm sub).length_le
  rw [List.length_map] at this
  omega

/-! ## A program: two entries, and two goroutines that take -/

/-- What happens: the `pop` that was called first gets the second entry. -/
def exHist : List (Event (Call Int Int) (Res (Int × Int))) := [.inv 0 (.push 5 50), .ret 0 (.bool true), .inv 1 (.push 3 30), .ret 1 (.bool true), .inv 2 .pop, .inv 3 .pop,
  .ret 3 (.val (3, 30)), .ret 2 (.val (5, 50))]

theorem ex_reach : ∃ s : State Int Int 0#64, Reach (queue Int Int 0#64) s ∧ s.hist = exHist ∧ ∀ t, s.pc t = .idle := by
  obtain ⟨w1, w2, w3, w4, r1, r2, r3, r4, c1, c2, c3, c4⟩ : ∃ w1 w2 w3 w4 : World Int Int, run (Skl.new 0#64) [.set 5 50] = .ret w1 ∧ run (Skl.new 0#64) [.set 5 50, .set 3 30] = .ret w2 ∧
      run (Skl.new 0#64) [.set 5 50, .set 3 30, .del 3] = .ret w3 ∧ run (Skl.new 0#64) [.set 5 50, .set 3 30, .del 3, .del 5] = .ret w4 ∧
      push (Skl.new 0#64) 5 50 = .ret (w1, true) ∧ push w1 3 30 = .ret (w2, true) ∧ pop w2 = .ret (w3, some (3, 30)) ∧ pop w3 = .ret (w4, some (5, 50)) :=
    ⟨_, _, _, _, rfl, rfl, rfl, rfl, rfl, rfl, rfl, rfl⟩
  let m1 : Mem Int Int 0#64 := ⟨w1, _, r1⟩
  let m2 : Mem Int Int 0#64 := ⟨w2, _, r2⟩
  let m3 : Mem Int Int 0#64 := ⟨w3, _, r3⟩
  let m4 : Mem Int Int 0#64 := ⟨w4, _, r4⟩
  have h : Reach (queue Int Int 0#64) (HandOut.quiet ⟨Skl.new 0#64, [], rfl⟩ 0 []) := .init
  have h : Reach (queue Int Int 0#64) _ := HandOut.alone (m' := m1) (c := .push 5 50) (r := .bool true) h (by exact ⟨true, c1, rfl⟩)
  have h : Reach (queue Int Int 0#64) _ := HandOut.alone (m' := m2) (c := .push 3 30) (r := .bool true) h (by exact ⟨true, c2, rfl⟩)
  have h := h.step (.invoke (t := 0) (c := .pop) rfl)
  have h := h.step (.invoke (t := 1) (c := .pop) rfl)
  have h := h.step (.lock (t := 1) (id := 3) (c := .pop) rfl rfl rfl rfl)
  have h := h.step (.access (t := 1) (id := 3) (c := .pop) (acc := ()) (r := .val (3, 30)) (m' := m3) rfl (by exact ⟨_, c3, rfl⟩))
  have h := h.step (.unlock (t := 1) (id := 3) (c := .pop) rfl rfl)
  have h := h.step (.ret (t := 1) (id := 3) (c := .pop) rfl)
  have h := h.step (.lock (t := 0) (id := 2) (c := .pop) rfl rfl rfl rfl)
  have h := h.step (.access (t := 0) (id := 2) (c := .pop) (acc := ()) (r := .val (5, 50)) (m' := m4) rfl (by exact ⟨_, c4, rfl⟩))
  have h := h.step (.unlock (t := 0) (id := 2) (c := .pop) rfl rfl)
  have h := h.step (.ret (t := 0) (id := 2) (c := .pop) rfl)
  refine ⟨_, h, rfl, fun t => ?_⟩
  rcases t with _ | _ | t <;> rfl

/-- Both entries had been accepted before the `pop` that returns the larger one; the smaller one is taken by the other `pop`. -/
example : ∃ s : State Int Int 0#64, Reach (queue Int Int 0#64) s ∧ Event.inv 1 (.push 3 30) ∈ s.hist ∧ Before s.hist (.ret 1 (.bool true)) (.inv 2 .pop) ∧
    Event.ret 2 (.val (5, 50)) ∈ s.hist ∧ TakenBy s.hist (3, 30) 1 2 3 := by
  obtain ⟨s, h, hh, -⟩ := ex_reach
  have hb : Before s.hist (.ret 1 (.bool true)) (.inv 2 .pop) := by rw [hh]; exact ⟨exHist.take 3, [], exHist.drop 5, rfl⟩
  have hi : Event.inv 1 (.push 3 30) ∈ s.hist := by rw [hh]; simp [exHist]
  have hr : Event.ret 2 (.val (5, 50)) ∈ s.hist := by rw [hh]; simp [exHist]
  refine ⟨s, h, hi, hb, hr, ?_⟩
  rcases C180_first h hi hb hr with ⟨k, v, e, lt⟩ | ⟨q, t⟩
  · cases e; cases lt
  · have hq := t.1
    rw [hh] at hq
    simp [exHist] at hq
    rcases hq with rfl | rfl
    · have := t.2.1 _ hr; cases this
    · exact t

/-- All hypotheses of `C180_served` hold of the entry 5, in a fair execution: one smaller key, two `pop` calls. -/
example : ∃ e who N n, Exec (queue Int Int 0#64) e who ∧ FairRun (queue Int Int 0#64) e who ∧ Event.inv 0 (.push 5 50) ∈ (e N).s.hist ∧ Event.ret 0 (.bool true) ∈ (e N).s.hist ∧
    (∀ m p' k' v', Event.inv p' (.push k' v') ∈ (e m).s.hist → GoOrdered.lt k' (5 : Int) = true → p' ∈ [1]) ∧
    (∀ q ∈ [2, 3], Event.inv q .pop ∉ (e N).s.hist) ∧ ∀ q ∈ [2, 3], Event.inv q .pop ∈ (e n).s.hist := by
  obtain ⟨s, h, hh, hi⟩ := ex_reach
  obtain ⟨e, who, n, p, hn⟩ := h.prefix
  have hn' : (e n).s.hist = exHist := by rw [hn]; exact hh
  obtain ⟨N, -, hN⟩ := p.exec.moment (a := exHist.take 4) (b := exHist.drop 4) (hn'.trans (List.take_append_drop ..).symm)
  refine ⟨e, who, N, n, p.exec, p.fair (by rw [hn]; exact hi), by simp [hN, exHist], by simp [hN, exHist], ?_, by simp [hN, exHist], by simp [hn', exHist]⟩
  intro m p' k' v' hm lt
  have : Event.inv p' (.push k' v') ∈ exHist := by
    rcases Nat.le_total m n with hmn | hmn
    · rw [← hn']; exact p.exec.up hmn hm
    · have := p.stays hmn
      rw [← hn', ← this]; exact hm
  simp [exHist] at this
  rcases this with ⟨rfl, rfl, rfl⟩ | ⟨rfl, rfl, rfl⟩
  · cases lt
  · simp

/-- A key that is in the queue is refused, and the queue stays as it is. -/
example : ∃ w : World Int Int, push (Skl.new 0#64) 5 50 = .ret (w, true) ∧ push w 5 51 = .ret (w, false) := ⟨_, rfl, rfl⟩

end Verif.SklPrio
