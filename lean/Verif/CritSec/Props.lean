import Verif.CritSec.Lemmas
/-!
# C172: sections of several calls under one mutex

Programs are arbitrary (`Prog`); `Reach` is every interleaving of the steps of the calls, with the mutex; `SerReach` makes whole sections at once, on a
mathematical map (`mapObj`, C144, C153) or stack.
-/
set_option linter.unusedSectionVars false
namespace Verif.CritSec
open Verif.Go Verif.Conc Verif.Conc.RW Verif.Conc.Sect Relation

variable {K V P : Type} [GoOrdered K] [LawfulOrdered K] [DecidableEq K] [Inhabited K] [Inhabited V] {seed : BitVec 64} {l : Nat → P}

section
open Verif.SklShare
variable {p : Prog P (Call K V) (Res K V)} {rd : P → Prop} {s : Sect.St (Mem K V seed) (Loc K V) (Call K V) P}

/-- **C172, skip-list map.** Every state that programs with sections reach is one of whole sections made one after the other: goroutines outside are
where these sections left them; without a writer inside, the map in memory is the one they left; and who is inside has made its calls so far on the map they
left, which a section for reading does not change. -/
theorem C172_serial (ho : Honest (shared K V seed) p rd) (h : Sect.Reach (shared K V seed) p l s) :
    ∃ m l', SerReach (mapObj K V) p l (m, l') ∧ (∀ t, s.pc t = .out → s.loc t = l' t) ∧ (s.writer = none → Agree s.m m) ∧
      ∀ t w, (s.pc t).mode = some w → p.enters (l' t) = some w ∧
        ∃ m', ReflTransGen (CallStep (mapObj K V) p) (m, l' t) (m', s.loc t) ∧ Agree s.m m' ∧ (w = false → m' = m) :=
  serial_sim Agree readsOnly ho skl_reads sim_step ⟨[], rfl, rfl⟩ h

/-- **C172, no deadlock and no panic.** -/
theorem C172_stuck (ho : Honest (shared K V seed) p rd) (h : Sect.Reach (shared K V seed) p l s)
    (hn : ¬ ∃ t s', Sect.Step (shared K V seed) p t s s') (t : Nat) : s.pc t = .out ∧ p.enters (s.loc t) = none := stuck readsOnly ho live h hn t

/-- **C172, an end.** Finitely many goroutines without endless loops come to an end. -/
theorem C172_ends (ho : Honest (shared K V seed) p rd) {ρ : P → Nat} (hb : Bounded p ρ) {N : Nat} (hN : ∀ t, N ≤ t → p.enters (l t) = none)
    (h : Sect.Reach (shared K V seed) p l s) : Acc (fun s' s => ∃ t, Sect.Step (shared K V seed) p t s s') s :=
  ends_bounded readsOnly ho shrinks hb hN h

/-- **C172, invariants.** What every section for writing keeps when it runs alone holds whenever nobody is in one, and every section for reading sees a map
for which it holds. -/
theorem C172_invariant (ho : Honest (shared K V seed) p rd) {J : (K → Option V) → Prop} (h0 : J fun _ => none)
    (hJ : ∀ m q m' q', J m → p.enters q = some true → ReflTransGen (CallStep (mapObj K V) p) (m, q) (m', q') → p.call q' = none → J m')
    (h : Sect.Reach (shared K V seed) p l s) :
    (s.writer = none → ∃ m, Agree s.m m ∧ J m) ∧
      ∀ t, (s.pc t).mode = some false → ∃ m q, J m ∧ p.enters q = some false ∧ ReflTransGen (CallStep (mapObj K V) p) (m, q) (m, s.loc t) := by
  obtain ⟨m, l', h1, -, h3, h4⟩ := C172_serial ho h
  have hj : ∀ a, SerReach (mapObj K V) p l a → J a.1 := by
    intro a ha
    induction ha with
    | start => exact h0
    | step _ st ih =>
      cases st with
      | @mk m l' w m' q e1 e2 e3 e4 =>
        cases w with
        | false => rw [e4 rfl]; exact ih
        | true => exact hJ _ _ _ _ ih e1 e2 e3
  refine ⟨fun hw => ⟨m, h3 hw, hj _ h1⟩, fun t ht => ?_⟩
  obtain ⟨e1, m', e2, -, e4⟩ := h4 t _ ht
  rw [e4 rfl] at e2
  exact ⟨m, l' t, hj _ h1, e1, e2⟩

/-- **C172, transfers.** Any number of goroutines make transfers between two entries of a map, others audit them. No audit ever sees money missing; and when
all is done every transfer is in the entries. -/
theorem C172_bank {k1 k2 : K} (hk : k1 ≠ k2) {l : Nat → Bank} {N : Nat} (hN : ∀ t, N ≤ t → (bank k1 k2).enters (l t) = none) (hl : ∀ t, (l t).Fresh)
    {s : Sect.St (Mem K Int seed) (Loc K Int) (Call K Int) Bank} (h : Sect.Reach (shared K Int seed) (bank k1 k2) l s) :
    (∀ t seen n, s.pc t = .out → s.loc t = .audit seen n → ∀ e ∈ seen, e.1 + e.2 = 0) ∧
    ((¬ ∃ t s', Sect.Step (shared K Int seed) (bank k1 k2) t s s') →
      ∃ m, Agree s.m m ∧ bal m k2 = ∑ t ∈ Finset.range N, (l t).left ∧ bal m k1 = - ∑ t ∈ Finset.range N, (l t).left) ∧
    Acc (fun s' s => ∃ t, Sect.Step (shared K Int seed) (bank k1 k2) t s s') s := by
  obtain ⟨m, l', h1, h2, h3, h4⟩ := C172_serial bank_honest h
  have b := books hk hN hl h1
  simp only at b
  refine ⟨fun t seen n ho e => ?_, fun hn => ?_, C172_ends bank_honest bank_bounded hN h⟩
  · rcases b.outs t with ⟨xs, e'⟩ | ⟨seen', n', e', h5⟩
    · rw [← h2 t ho, e] at e'; cases e'
    · rw [← h2 t ho, e] at e'; cases e'; exact h5
  · have hs := C172_stuck bank_honest h hn
    have hw : s.writer = none := by
      obtain ⟨m, l', -, f⟩ := serial readsOnly (bank_honest (seed := seed)) h
      cases e : s.writer with
      | none => rfl
      | some u => have := (f.writer u).1 e; rw [(hs u).1] at this; cases this
    have h0 : ∑ t ∈ Finset.range N, (l' t).left = 0 := by
      refine Finset.sum_eq_zero fun t _ => ?_
      obtain ⟨e1, e2⟩ := hs t
      rw [h2 t e1] at e2
      rcases b.outs t with ⟨xs, e'⟩ | ⟨seen', n', e', h5⟩
      · rw [e'] at e2 ⊢
        cases xs with
        | nil => rfl
        | cons x xs => cases e2
      · rw [e']; rfl
    have e1 := b.even
    have e2 := b.moved
    rw [h0] at e2
    exact ⟨m, h3 hw, by omega, by omega⟩

/-- **C172, get or create.** Goroutines that look an entry up and create it if it is not there, each with its own value, all get the same value, and one of them
proposed it. -/
theorem C172_make {k : K} {l : Nat → Make V} (hl : ∀ t, ∃ v, l t = .ask v) {s : Sect.St (Mem K V seed) (Loc K V) (Call K V) (Make V)}
    (h : Sect.Reach (shared K V seed) (make k) l s) {t u : Nat} {v w : V} (ht : s.pc t = .out) (hu : s.pc u = .out) (hv : s.loc t = .done v)
    (hw : s.loc u = .done w) : v = w ∧ ∃ t, l t = .ask v := by
  obtain ⟨m, l', h1, h2, -, -⟩ := C172_serial make_honest h
  have b := made hl h1
  simp only at b
  have key : ∀ t v, s.pc t = .out → s.loc t = .done v → m k = some v := by
    intro t v ht hv
    rcases b.outs t with ⟨_, v', e⟩ | ⟨v', e, e'⟩
    · rw [← h2 t ht, hv] at e; cases e
    · rw [← h2 t ht, hv] at e; cases e; exact e'
  have e1 := key t v ht hv
  have e2 := key u w hu hw
  rw [e1] at e2
  exact ⟨Option.some.inj e2, b.from_ask _ e1⟩

end

section
open Verif.OrdShare
variable {p : Prog P (Call K V) (Res K V)} {rd : P → Prop} {s : Sect.St (Mem K V seed) (Loc K V) (Call K V) P}

/-- **C172, ordered map.** -/
theorem C172_serial_ord (ho : Honest (shared K V seed) p rd) (h : Sect.Reach (shared K V seed) p l s) :
    ∃ m l', SerReach (mapObj K V) p l (m, l') ∧ (∀ t, s.pc t = .out → s.loc t = l' t) ∧ (s.writer = none → Agree s.m m) ∧
      ∀ t w, (s.pc t).mode = some w → p.enters (l' t) = some w ∧
        ∃ m', ReflTransGen (CallStep (mapObj K V) p) (m, l' t) (m', s.loc t) ∧ Agree s.m m' ∧ (w = false → m' = m) :=
  serial_sim Agree readsOnly ho (fun u c x u' hw st => by
    cases c <;> first | exact st.2 | (simp [shared, writes] at hw)) sim_step ⟨[], rfl, rfl⟩ h

theorem C172_stuck_ord (ho : Honest (shared K V seed) p rd) (h : Sect.Reach (shared K V seed) p l s)
    (hn : ¬ ∃ t s', Sect.Step (shared K V seed) p t s s') (t : Nat) : s.pc t = .out ∧ p.enters (s.loc t) = none := stuck readsOnly ho live h hn t

theorem C172_ends_ord (ho : Honest (shared K V seed) p rd) {ρ : P → Nat} (hb : Bounded p ρ) {N : Nat} (hN : ∀ t, N ≤ t → p.enters (l t) = none)
    (h : Sect.Reach (shared K V seed) p l s) : Acc (fun s' s => ∃ t, Sect.Step (shared K V seed) p t s s') s :=
  ends_bounded readsOnly ho shrinks hb hN h

end

section
open Verif.HandOut
variable {T : Type} [Inhabited T]

/-- **C172, linked stack.** `Pop` of the linked stack does not return what it removes (C17, C158). Programs that take with `Peek` and `Pop` in one section
have a stack: they reach what they reach on a stack with every call made at once; and they come to a stop only at their end. -/
theorem C172_stack {p : Client P (Dsx.SOp T) (Linked.Res T)} {s : Sect.St (Linked.Stack.Stack T) Unit (Dsx.SOp T) (Wrap T P)}
    (h : Sect.Reach (linkedStack T) (wrap p) (fun t => .out (l t)) s) :
    (∃ x l', AReach (lifo T) p l (x, l') ∧ (∀ t, s.pc t = .out → s.loc t = .out (l' t)) ∧ (s.writer = none → ∃ ns, Linked.Stack.Rep s.m x ns)) ∧
    ((¬ ∃ t s', Sect.Step (linkedStack T) (wrap p) t s s') → ∀ t, ∃ q, s.loc t = .out q ∧ p.call q = none) := by
  obtain ⟨x, l', h1, h2, h3, -⟩ := serial_sim (o' := lifoBelow T) (fun (x : Linked.Stack.Stack T) (l : List T) => ∃ ns, Linked.Stack.Rep x l ns) behind_reads wrap_honest
    (fun u c x u' hw => by cases hw) below_sim ⟨[], Linked.Stack.new_rep⟩ h
  obtain ⟨y, l'', h4, e⟩ := wrap_ser_reach h1
  cases e
  refine ⟨⟨x, l'', h4, h2, h3⟩, fun hn t => ?_⟩
  obtain ⟨e1, e2⟩ := stuck behind_reads wrap_honest (behind_live fun s c => ⟨_, _, ⟨none, 0⟩, rfl⟩) h hn t
  rw [h2 t e1] at e2 ⊢
  refine ⟨l'' t, rfl, ?_⟩
  simpa [wrap] using e2

end

/-! ## The same programs with a lock around every call -/

/-- One more whole call on the map, in memory. -/
theorem do_call {p : Client P (SklShare.Call K V) (SklShare.Res K V)} {w : SklShare.Mem K V seed} {m : K → Option V} {lo : Nat → P}
    (h : AReach (seqObj (SklShare.shared K V seed)) p l (w, lo)) (ag : SklShare.Agree w m) (t : Nat) {c : SklShare.Call K V} (hc : p.call (lo t) = some c) :
    ∃ r w' m', AReach (seqObj (SklShare.shared K V seed)) p l (w', setLoc lo t (p.resume (lo t) r)) ∧ (SklShare.mapObj K V).step m c r m' ∧ SklShare.Agree w' m' := by
  obtain ⟨r, w', st⟩ := total SklShare.live SklShare.shrinks w c
  obtain ⟨m', h1, h2⟩ := SklShare.sim_step _ _ _ _ _ ag st
  exact ⟨r, w', m', h.step (.mk hc st), h1, h2⟩

/-- A lock around each call is not enough: an audit sees 5 missing; and two goroutines take the same element from a linked stack. -/
theorem C172_apart :
    (∃ s, CReach (SklShare.shared Int Int seed) (bank 1 2).toClient (fun t => if t = 0 then .todo [5] else .audit [] 1) s ∧ s.loc 1 = .a2 [] 0 (-5) 0) ∧
    ∃ s, CReach (HandOut.linkedStack Int) (wrap (⟨fun b : Bool => if b then some (.push 7) else some .pop, fun b _ => b⟩ : Client Bool _ _)).toClient
      (fun t => .out (decide (t = 0))) s ∧ s.loc 1 = .done false (.val 7) ∧ s.loc 2 = .done false (.val 7) := by
  constructor
  · have h := AReach.start (o := seqObj (SklShare.shared Int Int seed)) (p := (bank 1 2).toClient) (l := fun t => if t = 0 then Bank.todo [5] else .audit [] 1)
    obtain ⟨r, w, m, h, ⟨rfl, rfl⟩, ag⟩ := do_call h (m := fun _ => none) ⟨[], rfl, rfl⟩ 0 (c := .get 1) rfl
    obtain ⟨r, w, m, h, ⟨rfl, rfl⟩, ag⟩ := do_call h ag 0 (c := .get 2) rfl
    obtain ⟨r, w, m, h, ⟨rfl, rfl⟩, ag⟩ := do_call h ag 0 (c := .set 1 (-5)) rfl
    obtain ⟨r, w, m, h, ⟨rfl, rfl⟩, ag⟩ := do_call h ag 1 (c := .get 1) rfl
    obtain ⟨r, w, m, h, ⟨rfl, rfl⟩, ag⟩ := do_call h ag 1 (c := .get 2) rfl
    obtain ⟨s, h1, _, h3, _⟩ := RW.sequential h
    exact ⟨s, h1, by rw [h3]; rfl⟩
  · have h := AReach.start (o := seqObj (HandOut.linkedStack Int)) (p := (wrap (⟨fun b : Bool => if b then some (.push 7) else some .pop, fun b _ => b⟩ : Client Bool _ _)).toClient)
      (l := fun t => .out (decide (t = 0)))
    replace h := h.step (t := 0) (.mk (c := .push 7) rfl ⟨(), .refl, ⟨none, 0⟩, rfl⟩)
    replace h := h.step (t := 1) (.mk (c := .peek) rfl ⟨(), .refl, ⟨none, 0⟩, rfl⟩)
    replace h := h.step (t := 2) (.mk (c := .peek) rfl ⟨(), .refl, ⟨none, 0⟩, rfl⟩)
    replace h := h.step (t := 1) (.mk (c := .pop) rfl ⟨(), .refl, ⟨none, 0⟩, rfl⟩)
    replace h := h.step (t := 2) (.mk (c := .pop) rfl ⟨(), .refl, ⟨none, 0⟩, rfl⟩)
    obtain ⟨s, h1, _, h3, _⟩ := RW.sequential h
    exact ⟨s, h1, by rw [h3]; rfl, by rw [h3]; rfl⟩

/-! ## Cases -/

/-- One more call of a section on the map, in memory. -/
theorem do_in {p : Prog P (SklShare.Call K V) (SklShare.Res K V)} {a : SklShare.Mem K V seed × P} {w : SklShare.Mem K V seed} {q : P} {m : K → Option V}
    (h : ReflTransGen (CallStep (seqObj (SklShare.shared K V seed)) p) a (w, q)) (ag : SklShare.Agree w m) {c : SklShare.Call K V} (hc : p.call q = some c) :
    ∃ r w' m', ReflTransGen (CallStep (seqObj (SklShare.shared K V seed)) p) a (w', p.resume q r) ∧ (SklShare.mapObj K V).step m c r m' ∧ SklShare.Agree w' m' := by
  obtain ⟨r, w', st⟩ := total SklShare.live SklShare.shrinks w c
  obtain ⟨m', h1, h2⟩ := SklShare.sim_step _ _ _ _ _ ag st
  exact ⟨r, w', m', h.tail ⟨c, r, hc, st, rfl⟩, h1, h2⟩

/-- Two goroutines with transfers, two that audit. -/
def four : Nat → Bank := fun t => if t = 0 then .todo [5, 3] else if t = 1 then .todo [-2] else if t ≤ 3 then .audit [] 2 else .todo []

example : (∀ t, 4 ≤ t → (bank (1 : Int) 2).enters (four t) = none) ∧ (∀ t, (four t).Fresh) ∧ ∑ t ∈ Finset.range 4, (four t).left = 6 := by
  refine ⟨fun t ht => ?_, fun t => ?_, by decide⟩
  · have : four t = .todo [] := by simp only [four]; rw [if_neg (by omega), if_neg (by omega), if_neg (by omega)]
    rw [this]; rfl
  · simp only [four]
    split
    · exact .inl ⟨_, rfl⟩
    · split
      · exact .inl ⟨_, rfl⟩
      · split
        · exact .inr ⟨_, rfl⟩
        · exact .inl ⟨_, rfl⟩

/-- After a transfer of 5 an audit sees -5 and 5, and then both auditors are inside together. -/
example : ∃ s, Sect.Reach (SklShare.shared Int Int seed) (bank 1 2) four s ∧ s.loc 2 = .audit [(-5, 5)] 1 ∧ s.readers = [3, 2] := by
  have h := SerReach.start (o := seqObj (SklShare.shared Int Int seed)) (p := bank 1 2) (l := four)
  obtain ⟨r, w, m, q, ⟨rfl, rfl⟩, ag⟩ := do_in (seed := seed) (p := bank 1 2) (a := ((SklShare.shared Int Int seed).init, four 0)) .refl (m := fun _ => none) ⟨[], rfl, rfl⟩ (c := .get 1) rfl
  obtain ⟨r, w, m, q, ⟨rfl, rfl⟩, ag⟩ := do_in q ag (c := .get 2) rfl
  obtain ⟨r, w, m, q, ⟨rfl, rfl⟩, ag⟩ := do_in q ag (c := .set 1 (-5)) rfl
  obtain ⟨r, w, m, q, ⟨rfl, rfl⟩, ag⟩ := do_in q ag (c := .set 2 5) rfl
  replace h := h.step (t := 0) (.mk (w := true) rfl q rfl nofun)
  obtain ⟨r, w', m, q, ⟨rfl, rfl⟩, ag⟩ := do_in (p := bank 1 2) (a := (w, four 2)) .refl ag (c := .get 1) rfl
  obtain ⟨r, w', m, q, ⟨rfl, rfl⟩, ag⟩ := do_in q ag (c := .get 2) rfl
  have e : w' = w := (calls_read bank_honest (o := seqObj (SklShare.shared Int Int seed)) (fun u c x u' hw st => by
    obtain ⟨acc, _, h2⟩ := st; exact SklShare.readsOnly _ _ _ _ _ hw h2) q trivial).1
  replace h := h.step (t := 2) (.mk (w := false) rfl q rfl fun _ => e)
  have h1 := sequential h
  replace h1 := h1.step (t := 2) (.rlock rfl rfl rfl)
  replace h1 := h1.step (t := 3) (.rlock rfl rfl rfl)
  exact ⟨_, h1, rfl, rfl⟩

/-- On the linked stack: 7 is put in, one goroutine takes it, the other finds nothing. -/
example : ∃ s, Sect.Reach (HandOut.linkedStack Int)
    (wrap (⟨fun q : Option (Dsx.SOp Int) × List (Linked.Res Int) => q.1, fun q r => (none, q.2 ++ [r])⟩ : Client _ _ _))
    (fun t => .out (if t = 0 then some (.push 7) else if t ≤ 2 then some .pop else none, [])) s ∧
    s.loc 1 = .out (none, [.val 7]) ∧ s.loc 2 = .out (none, [.none]) := by
  have h := SerReach.start (o := seqObj (HandOut.linkedStack Int))
    (p := wrap (⟨fun q : Option (Dsx.SOp Int) × List (Linked.Res Int) => q.1, fun q r => (none, q.2 ++ [r])⟩ : Client _ _ _))
    (l := fun t => .out (if t = 0 then some (.push 7) else if t ≤ 2 then some .pop else none, []))
  replace h := h.step (t := 0) (.mk (w := true) rfl (.single ⟨.push 7, _, rfl, ⟨(), .refl, ⟨none, 0⟩, rfl⟩, rfl⟩) rfl nofun)
  replace h := h.step (t := 1) (.mk (w := true) rfl
    (.tail (.single (b := (_, .seen (some .pop, []) (.val 7))) ⟨.peek, .val 7, rfl, ⟨(), .refl, ⟨none, 0⟩, rfl⟩, rfl⟩) ⟨.pop, .panic, rfl, ⟨(), .refl, ⟨none, 0⟩, rfl⟩, rfl⟩) rfl nofun)
  replace h := h.step (t := 2) (.mk (w := true) (q := .done (some .pop, []) .none) rfl (.single ⟨.peek, .none, rfl, ⟨(), .refl, ⟨none, 0⟩, rfl⟩, rfl⟩) rfl nofun)
  exact ⟨_, sequential h, rfl, rfl⟩

end Verif.CritSec
