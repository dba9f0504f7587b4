import Verif.PoolFull.Spec
import Verif.PoolSerial.Lemmas
import Verif.PoolDrain.Lemmas
/-!
# Where the goroutines of a pool are
-/
namespace Verif.PoolFull
open Verif.GoPool Verif.PoolSerial Verif.PoolFair Verif.PoolDrain

variable {s s' : St} {mx : Int} {tok : Nat → Loc} {cw rdr jc rd jb : Nat → Nat} {j j' k k' w c : Nat}

/-! ## Two goroutines never handle the same job -/

structure Own (s : St) : Prop where
  one : ∀ k w c j, s.gor k = .handling w c j → s.handled j ≠ 0
  uni : ∀ k k' w c w' c' j, s.gor k = .handling w c j → s.gor k' = .handling w' c' j → k = k'

theorem own_step (i : Inv s tok cw rdr jc) (h : Own s) (st : Step s s') : Own s' := by
  have mono : ∀ j, s.handled j ≤ s'.handled j := fun j => handled_mono st
  have same : (∀ k w c j, s'.gor k = .handling w c j → s.gor k = .handling w c j) → Own s' := fun hg =>
    ⟨fun k w c j hk => by have := h.one k w c j (hg _ _ _ _ hk); have := mono j; omega,
     fun k k' w c w' c' j h1 h2 => h.uni k k' w c w' c' j (hg _ _ _ _ h1) (hg _ _ _ _ h2)⟩
  have other : ∀ {k k' w c j : Nat} {q : GorPc}, (if k = k' then q else s.gor k) = .handling w c j → (∀ a b d, q ≠ .handling a b d) →
      s.gor k = .handling w c j := fun {k k' w c j q} h1 h2 => by
    by_cases e : k = k'
    · rw [if_pos e] at h1; exact absurd h1 (h2 _ _ _)
    · rw [if_neg e] at h1; exact h1
  cases st with
  | runPooled => exact same fun k w c j hk => other hk (by simp)
  | runFresh => exact same fun k w c j hk => other hk (by simp)
  | «begin» => exact same fun k w c j hk => other hk (by simp)
  | rangeEnd => exact same fun k w c j hk => other hk (by simp)
  | handled => exact same fun k w c j hk => other hk (by simp)
  | stamp => exact same fun k w c j hk => other hk (by simp)
  | freeDraining => exact same fun k w c j hk => other hk (by simp)
  | freeBack => exact same fun k w c j hk => other hk (by simp)
  | exit => exact same fun k w c j hk => other hk (by simp)
  | take k0 w0 c0 j0 a1 a2 =>
    have h0 : s.handled j0 = 0 := (i.job1 c0 j0 a2).2.1
    have inv : ∀ {k w c j}, (if k = k0 then GorPc.handling w0 c0 j0 else s.gor k) = .handling w c j →
        (k = k0 ∧ j = j0) ∨ (k ≠ k0 ∧ s.gor k = .handling w c j) := fun {k w c j} hk => by
      by_cases e : k = k0
      · rw [if_pos e] at hk; cases hk; exact .inl ⟨e, rfl⟩
      · rw [if_neg e] at hk; exact .inr ⟨e, hk⟩
    constructor
    · intro k w c j hk
      rcases inv hk with ⟨_, rfl⟩ | ⟨_, hk⟩
      · simp [St.setGor]
      · have := h.one k w c j hk; have := mono j; omega
    · intro k k' w c w' c' j h1 h2
      rcases inv h1 with ⟨e0, e1⟩ | ⟨n1, g1⟩ <;> rcases inv h2 with ⟨e2, e3⟩ | ⟨n2, g2⟩
      · exact e0.trans e2.symm
      · rw [e1] at g2; exact absurd h0 (h.one _ _ _ _ g2)
      · rw [e3] at g1; exact absurd h0 (h.one _ _ _ _ g1)
      · exact h.uni _ _ _ _ _ _ _ g1 g2
  | _ => exact same fun k w c j hk => hk

theorem own_reach {p : Nat} (hm : 0 < mx) (r : Reach mx p s) : Own s := by
  induction r with
  | init t => constructor <;> intro k <;> simp only [init] <;> intros <;> split at * <;> simp_all
  | step r st ih =>
    obtain ⟨tok, cw, rdr, jc, i⟩ := inv_reach hm r
    exact own_step i ih st

/-! ## What each goroutine is doing -/

/-- The goroutine has the job or is going to get it. -/
def Has (s : St) (rd : Nat → Nat) (k j : Nat) : Prop :=
  (∃ w, (s.gor k = .start w ∨ ∃ c, s.gor k = .recv w (some c) ∧ s.ch w = some c) ∧ rd w = k ∧
    (s.job j = .sending w ∨ s.queued w = some j)) ∨ ∃ w c, s.gor k = .handling w c j

/-- The goroutine waits for a job with its worker on the idle list. -/
def Idle (s : St) (rd : Nat → Nat) (k w : Nat) : Prop :=
  (∃ c, s.gor k = .recv w (some c) ∧ s.ch w = some c) ∧ rd w = k ∧ w ∈ s.dobby

theorem queued_chan (i : Inv s tok cw rdr jc) (h : s.queued w = some j) : ∃ c, s.ch w = some c ∧ s.buf c = some j ∧ tok w = .chan c j := by
  unfold St.queued at h
  cases hc : s.ch w with
  | none => rw [hc] at h; cases h
  | some c =>
    rw [hc] at h
    have := i.chan2 c j h
    rw [(i.cw1 w c hc).1] at this
    exact ⟨c, rfl, h, this⟩

theorem has_prog (i : Inv s tok cw rdr jc) (h : Has s rd k j) : InProgress s j := by
  rcases h with ⟨w, _, _, h | h⟩ | ⟨w, c, h⟩
  · exact .inl ⟨w, h⟩
  · obtain ⟨c, _, hb, _⟩ := queued_chan i h
    exact .inr (.inl ⟨c, hb⟩)
  · exact .inr (.inr ⟨k, w, c, h⟩)

theorem gor_worker {g : GorPc} {w w' : Nat} (h : g = .start w ∨ ∃ c, g = .recv w (some c) ∧ s.ch w = some c)
    (h' : g = .start w' ∨ ∃ c, g = .recv w' (some c) ∧ s.ch w' = some c) : w = w' := by
  rcases h with h | ⟨c, h, _⟩ <;> rcases h' with h' | ⟨c', h', _⟩ <;> rw [h] at h' <;> cases h' <;> rfl

/-- A goroutine has one job. -/
theorem has_fun (i : Inv s tok cw rdr jc) (h : Has s rd k j) (h' : Has s rd k j') : j = j' := by
  rcases h with ⟨w, hg, _, h⟩ | ⟨w, c, hg⟩ <;> rcases h' with ⟨w', hg', _, h'⟩ | ⟨w', c', hg'⟩
  · have := gor_worker hg hg'
    subst this
    rcases h with h | h <;> rcases h' with h' | h'
    · have a := (i.run j w).1 h; have b := (i.run j' w).1 h'; rw [a] at b; cases b; rfl
    · have a := (i.run j w).1 h; obtain ⟨c, _, _, b⟩ := queued_chan i h'; rw [a] at b; cases b
    · have a := (i.run j' w).1 h'; obtain ⟨c, _, _, b⟩ := queued_chan i h; rw [a] at b; cases b
    · rw [h] at h'; cases h'; rfl
  · rcases hg with hg | ⟨c, hg, _⟩ <;> rw [hg] at hg' <;> cases hg'
  · rcases hg' with hg' | ⟨c, hg', _⟩ <;> rw [hg] at hg' <;> cases hg'
  · rw [hg] at hg'; cases hg'; rfl

/-- A job has one goroutine. -/
theorem has_inj (i : Inv s tok cw rdr jc) (o : Own s) (hh : Hand s) (h : Has s rd k j) (h' : Has s rd k' j) : k = k' := by
  have nh : ∀ {k w c w'}, s.gor k = .handling w c j → ¬ (s.job j = .sending w' ∨ s.queued w' = some j) := by
    intro k w c w' hk hx
    rcases hx with hx | hx
    · have := hh k w c j hk; rw [hx] at this; cases this
    · obtain ⟨c', _, hb, _⟩ := queued_chan i hx
      exact o.one k w c j hk (i.job1 c' j hb).2.1
  rcases h with ⟨w, hg, hr, h⟩ | ⟨w, c, hg⟩ <;> rcases h' with ⟨w', hg', hr', h'⟩ | ⟨w', c', hg'⟩
  · have : w = w' := by
      rcases h with h | h <;> rcases h' with h' | h'
      · rw [h] at h'; cases h'; rfl
      · obtain ⟨c, _, hb, _⟩ := queued_chan i h'; have := (i.job1 c j hb).1; rw [h] at this; cases this
      · obtain ⟨c, _, hb, _⟩ := queued_chan i h; have := (i.job1 c j hb).1; rw [h'] at this; cases this
      · obtain ⟨c, h1, hb, _⟩ := queued_chan i h
        obtain ⟨c', h1', hb', _⟩ := queued_chan i h'
        have e := (i.job1 c j hb).2.2
        have e' := (i.job1 c' j hb').2.2
        have : c = c' := e.symm.trans e'
        subst this
        exact (i.cw1 w c h1).1.symm.trans (i.cw1 w' c h1').1
    subst this
    exact hr.symm.trans hr'
  · exact absurd h (nh hg')
  · exact absurd h' (nh hg)
  · exact o.uni _ _ _ _ _ _ _ hg hg'

/-- A job in progress has a goroutine. -/
theorem prog_has (i : Inv s tok cw rdr jc) (n : Fr s rd jb) (h : InProgress s j) : ∃ k, Has s rd k j ∧ (s.gor k).live = true := by
  have key : ∀ w, (tok w).active = true → (tok w).waiting = true → tok w ≠ .dobby → (s.job j = .sending w ∨ s.queued w = some j) →
      ∃ k, Has s rd k j ∧ (s.gor k).live = true := by
    intro w ha hw hd hj
    obtain ⟨a1, a2⟩ := i.active w ha
    have hr := i.reader w hw fun _ => hd
    cases hc : s.ch w with
    | none => exact absurd hc a1
    | some c =>
      rw [hc] at hr
      rcases hr with hr | hr
      · exact ⟨rdr w, .inl ⟨w, .inl hr, (n.start _ w hr).1, hj⟩, by rw [hr]; rfl⟩
      · rcases n.recv _ w c hr with g | ⟨_, g, _⟩
        · rw [a2 c hc] at g; cases g
        · exact ⟨rdr w, .inl ⟨w, .inr ⟨c, hr, hc⟩, g, hj⟩, by rw [hr]; rfl⟩
  rcases h with ⟨w, h⟩ | ⟨c, h⟩ | ⟨k, w, c, h⟩
  · have ht := (i.run j w).1 h
    exact key w (by rw [ht]; rfl) (by rw [ht]; rfl) (by rw [ht]; simp) (.inl h)
  · have ht := i.chan2 c j h
    obtain ⟨h1, h2⟩ := i.chan1 _ c j ht
    exact key (cw c) (by rw [ht]; rfl) (by rw [ht]; rfl) (by rw [ht]; simp) (.inr (by unfold St.queued; rw [h1]; exact h2))
  · exact ⟨k, .inr ⟨w, c, h⟩, by rw [h]; rfl⟩

/-- A worker on the idle list has a goroutine that waits. -/
theorem dobby_idle (i : Inv s tok cw rdr jc) (n : Fr s rd jb) (hx : s.maxWorkers ≠ -1) (h : w ∈ s.dobby) :
    ∃ k, Idle s rd k w ∧ (s.gor k).live = true := by
  have ht := (i.dobby1 w).1 h
  obtain ⟨a1, a2⟩ := i.idle w ht
  have hr := i.reader w (by rw [ht]; rfl) fun e => absurd e hx
  cases hc : s.ch w with
  | none => exact absurd hc a1
  | some c =>
    rw [hc] at hr
    rcases hr with hr | hr
    · rcases (n.start _ w hr).2 with g | g
      · have := (i.run _ w).1 g; rw [ht] at this; cases this
      · obtain ⟨_, _, _, this⟩ := queued_chan i g; rw [ht] at this; cases this
    · rcases n.recv _ w c hr with g | ⟨_, g, _⟩
      · rw [a2 hx c hc] at g; cases g
      · exact ⟨rdr w, ⟨⟨c, hr, hc⟩, g, h⟩, by rw [hr]; rfl⟩

theorem idle_no_job (i : Inv s tok cw rdr jc) (h : Idle s rd k w) : ¬ Has s rd k j := by
  obtain ⟨⟨c, hg, hc⟩, _, hd⟩ := h
  have ht := (i.dobby1 w).1 hd
  rintro (⟨w', hg', _, h'⟩ | ⟨w', c', hg'⟩)
  · have := gor_worker (s := s) (g := s.gor k) (.inr ⟨c, hg, hc⟩) hg'
    subst this
    rcases h' with g | g
    · have := (i.run _ w).1 g; rw [ht] at this; cases this
    · obtain ⟨_, _, _, this⟩ := queued_chan i g; rw [ht] at this; cases this
  · rw [hg] at hg'; cases hg'

/-! ## Goroutines that leave -/

/-- The goroutine has ended its loop, or its channel is closed or its worker is in the hands of the collector. -/
def Out (s : St) (k : Nat) : Prop :=
  s.gor k = .exiting ∨ s.gor k = .dead ∨ ∃ w c, s.gor k = .recv w (some c) ∧ (s.closed c = true ∨ w ∈ s.gc.held)

theorem out_step (i : Inv s tok cw rdr jc) (n : Fr s rd jb) (st : Step s s') (h : Out s k) : Out s' k := by
  have cl : ∀ c, s.closed c = true → s'.closed c = true := fun c h => closed_step i st h
  have nj : ∀ {w c j}, s.gor k = .recv w (some c) → (s.closed c = true ∨ w ∈ s.gc.held) → s.buf c ≠ some j := by
    intro w c j hk ho hb
    have ht := i.chan2 c j hb
    have hc := (i.chan1 _ c j ht).1
    have nc : s.closed c = false := (i.active (cw c) (by rw [ht]; rfl)).2 c hc
    rcases ho with ho | ho
    · rw [nc] at ho; cases ho
    · have e := (i.rcv k w c hk).1
      rw [e] at ht
      have := (i.gc1 w).1 ho
      rw [ht] at this; cases this
  have keep : s'.gor k = s.gor k → (∀ w, w ∈ s.gc.held → w ∈ s'.gc.held ∨ s.ch w = none) → Out s' k := by
    intro hg hh
    rcases h with h | h | ⟨w, c, h, ho⟩
    · exact .inl (hg.trans h)
    · exact .inr (.inl (hg.trans h))
    · refine .inr (.inr ⟨w, c, hg.trans h, ?_⟩)
      rcases n.recv k w c h with g | ⟨g, _⟩
      · exact .inl (cl c g)
      · rcases ho with ho | ho
        · exact .inl (cl c ho)
        · rcases hh w ho with x | x
          · exact .inr x
          · rw [g] at x; cases x
  have other : ∀ {k0 : Nat} {q q' : GorPc}, s.gor k0 = q → q ≠ .exiting → q ≠ .dead → (∀ w c, q ≠ .recv w (some c)) →
      (if k = k0 then q' else s.gor k) = s.gor k := by
    intro k0 q q' h1 h2 h3 h4
    refine if_neg ?_
    rintro rfl
    rcases h with h | h | ⟨w, c, h, _⟩
    · exact h2 (h1.symm.trans h)
    · exact h3 (h1.symm.trans h)
    · exact h4 w c (h1.symm.trans h)
  cases st with
  | runPooled => exact keep (other (i.gfresh _ (Nat.le_refl _)) (by simp) (by simp) (by simp)) fun w hw => .inl hw
  | runFresh => exact keep (other (i.gfresh _ (Nat.le_refl _)) (by simp) (by simp) (by simp)) fun w hw => .inl hw
  | «begin» _ _ a => exact keep (other a (by simp) (by simp) (by simp)) fun w hw => .inl hw
  | handled _ _ _ _ a => exact keep (other a (by simp) (by simp) (by simp)) fun w hw => .inl hw
  | stamp _ _ _ _ a => exact keep (other a (by simp) (by simp) (by simp)) fun w hw => .inl hw
  | freeDraining _ _ _ a => exact keep (other a (by simp) (by simp) (by simp)) fun w hw => .inl hw
  | freeBack _ _ _ a => exact keep (other a (by simp) (by simp) (by simp)) fun w hw => .inl hw
  | take k0 w0 c0 j0 a1 a2 =>
    by_cases e : k = k0
    · subst e
      rcases h with h | h | ⟨w, c, h, ho⟩
      · rw [h] at a1; cases a1
      · rw [h] at a1; cases a1
      · have hb : s.buf c = some j0 := by rw [h] at a1; cases a1; exact a2
        exact absurd hb (nj h ho)
    · exact keep (if_neg e) fun w hw => .inl hw
  | rangeEnd k0 w0 c0 a1 a2 a3 =>
    by_cases e : k = k0
    · exact .inl (if_pos e)
    · exact keep (if_neg e) fun w hw => .inl hw
  | exit k0 a =>
    by_cases e : k = k0
    · exact .inr (.inl (if_pos e))
    · exact keep (if_neg e) fun w hw => .inl hw
  | tick now l a b d => exact keep rfl fun w hw => by rw [a] at hw; cases hw
  | tickDraining cl' a b d => exact keep rfl fun w hw => by rw [a] at hw; cases hw
  | closeOne w0 ws c0 a b d => exact keep rfl fun w hw => by rw [a] at hw; exact .inl hw
  | clearOne w0 ws a => exact keep rfl fun w hw => by rw [a] at hw; exact .inl hw
  | putOne w0 ws a =>
    exact keep rfl fun w hw => by
      rw [a] at hw
      rcases List.mem_cons.1 hw with e | hw
      · exact .inr (by rw [e]; exact n.put w0 ws a)
      · exact .inl hw
  | collected a => exact keep rfl fun w hw => by rw [a] at hw; cases hw
  | stopSignal k0 a b d => exact keep rfl fun w hw => by rw [d] at hw; cases hw
  | stopAll cl' a b => exact keep rfl fun w hw => by rw [a] at hw; cases hw
  | _ => exact keep rfl fun w hw => .inl hw

theorem out_leaving (hm : 0 < mx) (r : Reach mx 0 s) (h : Out s k) (hl : (s.gor k).live = true) : Leaving s k := by
  refine ⟨hl, fun s' l w c j hk => ?_⟩
  have : Out s' k := by
    clear hk
    induction l with
    | refl => exact h
    | tail l st ih =>
      obtain ⟨tok, cw, rdr, jc, rd, jb, i, n⟩ := fr_reach hm (r.later l)
      exact out_step i n st ih
  rcases this with g | g | ⟨w, c, g, _⟩ <;> rw [hk] at g <;> cases g

/-- Every goroutine that is counted is in one of the four places. -/
theorem live_cases (n : Fr s rd jb) (hl : (s.gor k).live = true) :
    (∃ j, Has s rd k j) ∨ (∃ w, Idle s rd k w) ∨ Returning s k ∨ Out s k := by
  cases hk : s.gor k with
  | unborn => rw [hk] at hl; cases hl
  | dead => rw [hk] at hl; cases hl
  | start w =>
    obtain ⟨h1, h2⟩ := n.start k w hk
    exact .inl ⟨jb w, .inl ⟨w, .inl hk, h1, h2⟩⟩
  | recv w o =>
    cases o with
    | none => exact absurd hk (n.nonil k w)
    | some c =>
      rcases n.recv k w c hk with g | ⟨h1, h2, g | g | g⟩
      · exact .inr (.inr (.inr (.inr (.inr ⟨w, c, hk, .inl g⟩))))
      · exact .inr (.inl ⟨w, ⟨c, hk, h1⟩, h2, g⟩)
      · exact .inr (.inr (.inr (.inr (.inr ⟨w, c, hk, .inr g⟩))))
      · exact .inl ⟨jb w, .inl ⟨w, .inr ⟨c, hk, h1⟩, h2, g⟩⟩
  | handling w c j => exact .inl ⟨j, .inr ⟨w, c, hk⟩⟩
  | stamp w c => exact .inr (.inr (.inl (.inl ⟨w, c, hk⟩)))
  | free w c => exact .inr (.inr (.inl (.inr ⟨w, c, hk⟩)))
  | exiting => exact .inr (.inr (.inr (.inl hk)))

theorem returning_no_job (h : Returning s k) : ¬ Has s rd k j := by
  rintro (⟨w, hg | ⟨c, hg, _⟩, _⟩ | ⟨w, c, hg⟩) <;> rcases h with ⟨w', c', h⟩ | ⟨w', c', h⟩ <;> rw [h] at hg <;> cases hg

theorem returning_not_idle (h : Returning s k) : ¬ Idle s rd k w := by
  rintro ⟨⟨c, hg, _⟩, _⟩
  rcases h with ⟨w', c', h⟩ | ⟨w', c', h⟩ <;> rw [h] at hg <;> cases hg

/-- A list of the things that correspond one to one to some members of a list. -/
theorem matched {α : Type} (g : List Nat) (hg : g.Nodup) (R : Nat → α → Prop) (hf : ∀ k a b, R k a → R k b → a = b)
    (hi : ∀ k k' a, R k a → R k' a → k = k') :
    ∃ l : List α, l.Nodup ∧ (∀ a, a ∈ l ↔ ∃ k ∈ g, R k a) ∧ ∃ t : List Nat, t.Nodup ∧ (∀ k, k ∈ t ↔ k ∈ g ∧ ∃ a, R k a) ∧ t.length = l.length := by
  classical
  induction g with
  | nil => exact ⟨[], by simp, by simp, [], by simp, by simp, rfl⟩
  | cons k g ih =>
    obtain ⟨h1, h2⟩ := List.nodup_cons.1 hg
    obtain ⟨l, hl, hm, t, ht, htm, hlen⟩ := ih h2
    by_cases hk : ∃ a, R k a
    · obtain ⟨a, ha⟩ := hk
      refine ⟨a :: l, List.nodup_cons.2 ⟨fun hx => ?_, hl⟩, fun b => ?_, k :: t, List.nodup_cons.2 ⟨fun hx => h1 ((htm k).1 hx).1, ht⟩,
        fun k' => ?_, by simp [hlen]⟩
      · obtain ⟨k', hk', hr⟩ := (hm a).1 hx
        exact h1 (hi k k' a ha hr ▸ hk')
      · rw [List.mem_cons, hm]
        constructor
        · rintro (rfl | ⟨k', hk', hr⟩)
          · exact ⟨k, List.mem_cons_self, ha⟩
          · exact ⟨k', List.mem_cons_of_mem _ hk', hr⟩
        · rintro ⟨k', hk', hr⟩
          rcases List.mem_cons.1 hk' with rfl | hk'
          · exact .inl (hf _ _ _ hr ha)
          · exact .inr ⟨k', hk', hr⟩
      · rw [List.mem_cons, List.mem_cons, htm]
        constructor
        · rintro (rfl | ⟨h3, h4⟩)
          · exact ⟨.inl rfl, a, ha⟩
          · exact ⟨.inr h3, h4⟩
        · rintro ⟨rfl | h3, h4⟩
          · exact .inl rfl
          · exact .inr ⟨h3, h4⟩
    · refine ⟨l, hl, fun b => ?_, t, ht, fun k' => ?_, hlen⟩
      · rw [hm]
        constructor
        · rintro ⟨k', hk', hr⟩; exact ⟨k', List.mem_cons_of_mem _ hk', hr⟩
        · rintro ⟨k', hk', hr⟩
          rcases List.mem_cons.1 hk' with rfl | hk'
          · exact absurd ⟨b, hr⟩ hk
          · exact ⟨k', hk', hr⟩
      · rw [htm, List.mem_cons]
        constructor
        · rintro ⟨h3, h4⟩; exact ⟨.inr h3, h4⟩
        · rintro ⟨rfl | h3, h4⟩
          · exact absurd h4 hk
          · exact ⟨h3, h4⟩

theorem account (hm : 0 < mx) (r : Reach mx 0 s) (hx : s.maxWorkers ≠ -1) :
    ∃ js rs ls : List Nat, JobsAre s js ∧ (rs.Nodup ∧ ∀ k, k ∈ rs ↔ Returning s k) ∧ (ls.Nodup ∧ ∀ k ∈ ls, Leaving s k) ∧
      s.workers = js.length + s.dobby.length + rs.length + ls.length := by
  classical
  obtain ⟨tok, cw, rdr, jc, rd, jb, i, n⟩ := fr_reach hm r
  obtain ⟨g, cn⟩ := cnt_reach hm r
  have o := own_reach hm r
  have hh := hand_reach hm r
  obtain ⟨js, hj1, hj2, t, ht1, ht2, ht3⟩ := matched g cn.nodup (Has s rd) (fun k a b => has_fun i) fun k k' a => has_inj i o hh
  obtain ⟨ds, hd1, hd2, u, hu1, hu2, hu3⟩ := matched g cn.nodup (Idle s rd)
    (fun k a b ha hb => by
      obtain ⟨⟨c, hg, _⟩, _⟩ := ha
      obtain ⟨⟨c', hg', _⟩, _⟩ := hb
      rw [hg] at hg'; cases hg'; rfl)
    fun k k' a ha hb => ha.2.1.symm.trans hb.2.1
  have hds : ds.Perm s.dobby := by
    rw [List.perm_ext_iff_of_nodup hd1 i.dobby2]
    intro w
    rw [hd2]
    constructor
    · rintro ⟨k, _, h⟩; exact h.2.2
    · intro h
      obtain ⟨k, h1, h2⟩ := dobby_idle i n hx h
      exact ⟨k, (cn.mem k).2 h2, h1⟩
  let rs := g.filter fun k => decide (Returning s k)
  let ls := g.filter fun k => decide ((¬ ∃ j, Has s rd k j) ∧ (¬ ∃ w, Idle s rd k w) ∧ ¬ Returning s k)
  have hrl : ∀ k, Returning s k → (s.gor k).live = true := by
    rintro k (⟨w, c, h⟩ | ⟨w, c, h⟩) <;> rw [h] <;> rfl
  refine ⟨js, rs, ls, ⟨hj1, fun j => ?_⟩, ⟨cn.nodup.filter _, fun k => ?_⟩, ⟨cn.nodup.filter _, fun k hk => ?_⟩, ?_⟩
  · rw [hj2]
    constructor
    · rintro ⟨k, _, h⟩; exact has_prog i h
    · intro h
      obtain ⟨k, h1, h2⟩ := prog_has i n h
      exact ⟨k, (cn.mem k).2 h2, h1⟩
  · simp only [rs, List.mem_filter, decide_eq_true_eq]
    exact ⟨fun h => h.2, fun h => ⟨(cn.mem k).2 (hrl k h), h⟩⟩
  · simp only [ls, List.mem_filter, decide_eq_true_eq] at hk
    obtain ⟨h1, h2, h3, h4⟩ := hk
    have hl := (cn.mem k).1 h1
    rcases live_cases n hl with h | h | h | h
    · exact absurd h h2
    · exact absurd h h3
    · exact absurd h h4
    · exact out_leaving hm r h hl
  · rw [cn.len]
    have hp : g.Perm (t ++ (u ++ (rs ++ ls))) := by
      rw [List.perm_ext_iff_of_nodup cn.nodup]
      · intro k
        simp only [List.mem_append, ht2, hu2, rs, ls, List.mem_filter, decide_eq_true_eq]
        constructor
        · intro hk
          by_cases h1 : ∃ j, Has s rd k j
          · exact .inl ⟨hk, h1⟩
          · by_cases h2 : ∃ w, Idle s rd k w
            · exact .inr (.inl ⟨hk, h2⟩)
            · by_cases h3 : Returning s k
              · exact .inr (.inr (.inl ⟨hk, h3⟩))
              · exact .inr (.inr (.inr ⟨hk, h1, h2, h3⟩))
        · rintro (h | h | h | h) <;> exact h.1
      · have d1 : (rs ++ ls).Nodup := List.Nodup.append (cn.nodup.filter _) (cn.nodup.filter _) fun k h1 h2 => by
          simp only [rs, ls, List.mem_filter, decide_eq_true_eq] at h1 h2
          exact h2.2.2.2 h1.2
        have d2 : (u ++ (rs ++ ls)).Nodup := List.Nodup.append hu1 d1 fun k h1 h2 => by
          obtain ⟨_, w, h1⟩ := (hu2 k).1 h1
          simp only [List.mem_append, rs, ls, List.mem_filter, decide_eq_true_eq] at h2
          rcases h2 with h2 | h2
          · exact returning_not_idle h2.2 h1
          · exact h2.2.2.1 ⟨w, h1⟩
        refine List.Nodup.append ht1 d2 fun k h1 h2 => ?_
        obtain ⟨_, j, h1⟩ := (ht2 k).1 h1
        simp only [List.mem_append, hu2, rs, ls, List.mem_filter, decide_eq_true_eq] at h2
        rcases h2 with ⟨_, w, h2⟩ | h2 | h2
        · exact idle_no_job i h2 h1
        · exact returning_no_job h2.2 h1
        · exact h2.2.1 ⟨j, h1⟩
    have := hp.length_eq
    simp only [List.length_append] at this
    have := hds.length_eq
    rw [hp.length_eq]
    simp only [List.length_append]
    push_cast
    omega

end Verif.PoolFull
