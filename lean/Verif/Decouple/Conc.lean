import Verif.Decouple.Model
/-!
# The invariant of the decoupler under concurrency
-/
namespace Verif.Decouple

variable {α : Type} {size : Nat} {payload : Nat → List α}

/-- The slot a writer has locked. -/
def WPc.holds : WPc → Option Nat
  | .copy ts => some ts
  | .store ts => some ts
  | _ => none

/-- The ticket a writer holds. -/
def WPc.ticket : WPc → Option Nat
  | .load ts => some ts
  | .cas ts => some ts
  | .copy ts => some ts
  | .store ts => some ts
  | _ => none

/-- The payload has been published. -/
def WPc.done : WPc → Bool
  | .incr => true
  | .accepted => true
  | _ => false

def RPc.on : RPc → Option Nat
  | .view i => some i
  | .clear i => some i
  | _ => none

def RPc.busy : RPc → Bool
  | .idle => false
  | _ => true

def full (l : Nat) : Bool := l != emptyL && l != busyL

/-- `own`: the writer whose payload is, or is being put, in the slot; `sl`: the slot of a writer; `js`: the
writers whose payload was shown. -/
structure Inv (size : Nat) (payload : Nat → List α) (s : St α) (own sl : Nat → Nat) (js : List Nat) : Prop where
  att : s.wr = (s.attempts + (W - 1)) % W
  tick : ∀ j ts, (s.wpc j).ticket = some ts → ts < s.attempts
  hold : ∀ j ts, (s.wpc j).holds = some ts → s.lock (slot size ts) = busyL ∧ own (slot size ts) = j
  stored : ∀ j ts, s.wpc j = .store ts → s.buf (slot size ts) = payload j
  fullS : ∀ i, full (s.lock i) = true → (s.wpc (own i)).done = true ∧ s.buf i = payload (own i) ∧ sl (own i) = i ∧
    (own i ∈ js ↔ s.rpc = .clear i)
  notLost : ∀ j, (s.wpc j).done = true → j ∈ js ∨ full (s.lock (sl j)) = true ∧ own (sl j) = j
  jsDone : ∀ j, j ∈ js → (s.wpc j).done = true
  jsN : js.Nodup
  jsLog : js.map payload = s.log
  rdr : ∀ i, s.rpc.on = some i → full (s.lock i) = true
  nz : ∀ j, s.wpc j ≠ .new → s.wpc j ≠ .dropped → payload j ≠ []

theorem full_iff (l : Nat) : full l = true ↔ l ≠ emptyL ∧ l ≠ busyL := by simp [full]

theorem att_step {n : Nat} (h : n + 1 < W) : ((n + (W - 1)) % W + 1) % W = n := by
  unfold W at *; omega

set_option hygiene false in
macro "d_auto" : tactic => `(tactic|
  (constructor <;> (try simp only [St.at]) <;> first
    | assumption
    | grind [WPc.ticket, WPc.holds, WPc.done, RPc.on]
    | (intro j' ts' h'
       by_cases e : j' = j
       · subst e; simp [WPc.holds] at h'
       · rw [if_neg e] at h'; exact i3 _ _ h')
    | (intro j' ts' h'
       by_cases e : j' = j
       · subst e
         simp only [if_true, WPc.holds, WPc.ticket, Option.some.injEq, WPc.store.injEq] at h'
         subst h'
         first
         | (have g := i3 j' ts (by rw [h]; rfl); grind)
         | (have g := i2 j' ts (by rw [h]; rfl); grind)
         | grind
       · rw [if_neg e] at h'
         first
         | exact i2 _ _ h'
         | (have g := i3 _ _ h'; have g' := i3 j ts (by rw [h]; rfl); grind)
         | (have g := i3 _ _ h'; grind)
         | (have g := i3 _ _ (show (s.wpc j').holds = some ts' by rw [h']; rfl)
            have g' := i3 j ts (by rw [h]; rfl); grind))
    | skip))

set_option linter.unusedVariables false

variable {s s' : St α} {own sl : Nat → Nat} {js : List Nat}

theorem inv_callEmpty (n : Inv size payload s own sl js) (j : Nat) (h : s.wpc j = .new) (h1 : (payload j).length = 0) :
    ∃ own' sl' js', Inv size payload (s.at j .dropped) own' sl' js' := by
  obtain ⟨i1, i2, i3, i4, i5, i6, i7, i8, i9, i10, i11⟩ := n
  have hne : emptyL ≠ busyL := by decide
  have hfe : full emptyL = false := by decide
  have hfb : full busyL = false := by decide
  have hf := full_iff
  refine ⟨own, sl, js, ?_⟩
  d_auto

theorem inv_call (n : Inv size payload s own sl js) (j : Nat) (h : s.wpc j = .new) (h1 : (payload j).length ≠ 0) :
    ∃ own' sl' js', Inv size payload (s.at j .add) own' sl' js' := by
  obtain ⟨i1, i2, i3, i4, i5, i6, i7, i8, i9, i10, i11⟩ := n
  have hne : emptyL ≠ busyL := by decide
  have hfe : full emptyL = false := by decide
  have hfb : full busyL = false := by decide
  have hf := full_iff
  refine ⟨own, sl, js, ?_⟩
  d_auto

theorem inv_add (n : Inv size payload s own sl js) (j : Nat) (h : s.wpc j = .add) (h1 : size ≠ 0) (ha : s.attempts + 1 < W - 2) :
    ∃ own' sl' js', Inv size payload ({ s with wr := (s.wr + 1) % W, attempts := s.attempts + 1 }.at j (.load ((s.wr + 1) % W))) own' sl' js' := by
  obtain ⟨i1, i2, i3, i4, i5, i6, i7, i8, i9, i10, i11⟩ := n
  have hne : emptyL ≠ busyL := by decide
  have hfe : full emptyL = false := by decide
  have hfb : full busyL = false := by decide
  have hf := full_iff
  have hts : (s.wr + 1) % W = s.attempts := by
    rw [i1]; exact att_step (by unfold W at *; omega)
  have hwr : s.attempts = (s.attempts + 1 + (W - 1)) % W := by
    unfold W at *; omega
  rw [hts]
  clear hts i1 ha
  refine ⟨own, sl, js, ?_⟩
  d_auto

theorem inv_addCrash (n : Inv size payload s own sl js) (j : Nat) (h : s.wpc j = .add) (h1 : size = 0) :
    ∃ own' sl' js', Inv size payload { s with crashed := true } own' sl' js' := by
  obtain ⟨i1, i2, i3, i4, i5, i6, i7, i8, i9, i10, i11⟩ := n
  have hne : emptyL ≠ busyL := by decide
  have hfe : full emptyL = false := by decide
  have hfb : full busyL = false := by decide
  have hf := full_iff
  refine ⟨own, sl, js, ?_⟩
  d_auto

theorem inv_loadEmpty (n : Inv size payload s own sl js) (j ts : Nat) (h : s.wpc j = .load ts) (h1 : s.lock (slot size ts) = emptyL) :
    ∃ own' sl' js', Inv size payload (s.at j (.cas ts)) own' sl' js' := by
  obtain ⟨i1, i2, i3, i4, i5, i6, i7, i8, i9, i10, i11⟩ := n
  have hne : emptyL ≠ busyL := by decide
  have hfe : full emptyL = false := by decide
  have hfb : full busyL = false := by decide
  have hf := full_iff
  refine ⟨own, sl, js, ?_⟩
  d_auto

theorem inv_loadBusy (n : Inv size payload s own sl js) (j ts : Nat) (h : s.wpc j = .load ts) (h1 : s.lock (slot size ts) = busyL) :
    ∃ own' sl' js', Inv size payload (s.at j .add) own' sl' js' := by
  obtain ⟨i1, i2, i3, i4, i5, i6, i7, i8, i9, i10, i11⟩ := n
  have hne : emptyL ≠ busyL := by decide
  have hfe : full emptyL = false := by decide
  have hfb : full busyL = false := by decide
  have hf := full_iff
  refine ⟨own, sl, js, ?_⟩
  d_auto

theorem inv_loadFull (n : Inv size payload s own sl js) (j ts : Nat) (h : s.wpc j = .load ts) (h1 : s.lock (slot size ts) ≠ emptyL) (h2 : s.lock (slot size ts) ≠ busyL) :
    ∃ own' sl' js', Inv size payload (s.at j .chk) own' sl' js' := by
  obtain ⟨i1, i2, i3, i4, i5, i6, i7, i8, i9, i10, i11⟩ := n
  have hne : emptyL ≠ busyL := by decide
  have hfe : full emptyL = false := by decide
  have hfb : full busyL = false := by decide
  have hf := full_iff
  refine ⟨own, sl, js, ?_⟩
  d_auto

theorem inv_casOk (n : Inv size payload s own sl js) (j ts : Nat) (h : s.wpc j = .cas ts) (h1 : s.lock (slot size ts) = emptyL) :
    ∃ own' sl' js', Inv size payload ({ s with lock := fun i => if i = slot size ts then busyL else s.lock i }.at j (.copy ts)) own' sl' js' := by
  obtain ⟨i1, i2, i3, i4, i5, i6, i7, i8, i9, i10, i11⟩ := n
  have hne : emptyL ≠ busyL := by decide
  have hfe : full emptyL = false := by decide
  have hfb : full busyL = false := by decide
  have hf := full_iff
  refine ⟨fun x => if x = slot size ts then j else own x, sl, js, ?_⟩
  d_auto

theorem inv_casFail (n : Inv size payload s own sl js) (j ts : Nat) (h : s.wpc j = .cas ts) (h1 : s.lock (slot size ts) ≠ emptyL) :
    ∃ own' sl' js', Inv size payload (s.at j .add) own' sl' js' := by
  obtain ⟨i1, i2, i3, i4, i5, i6, i7, i8, i9, i10, i11⟩ := n
  have hne : emptyL ≠ busyL := by decide
  have hfe : full emptyL = false := by decide
  have hfb : full busyL = false := by decide
  have hf := full_iff
  refine ⟨own, sl, js, ?_⟩
  d_auto

theorem inv_copy (n : Inv size payload s own sl js) (j ts : Nat) (h : s.wpc j = .copy ts) :
    ∃ own' sl' js', Inv size payload ({ s with buf := fun i => if i = slot size ts then payload j else s.buf i }.at j (.store ts)) own' sl' js' := by
  obtain ⟨i1, i2, i3, i4, i5, i6, i7, i8, i9, i10, i11⟩ := n
  have hne : emptyL ≠ busyL := by decide
  have hfe : full emptyL = false := by decide
  have hfb : full busyL = false := by decide
  have hf := full_iff
  refine ⟨own, sl, js, ?_⟩
  d_auto

theorem inv_store (n : Inv size payload s own sl js) (j ts : Nat) (h : s.wpc j = .store ts) (ha : s.attempts < W - 2) :
    ∃ own' sl' js', Inv size payload ({ s with lock := fun i => if i = slot size ts then ts else s.lock i }.at j .incr) own' sl' js' := by
  obtain ⟨i1, i2, i3, i4, i5, i6, i7, i8, i9, i10, i11⟩ := n
  have hne : emptyL ≠ busyL := by decide
  have hfe : full emptyL = false := by decide
  have hfb : full busyL = false := by decide
  have hf := full_iff
  have hlt := i2 j ts (by rw [h]; rfl)
  have hg := i3 j ts (by rw [h]; rfl)
  have hts : full ts = true := by
    rw [full_iff]; unfold emptyL busyL W at *; omega
  clear ha
  refine ⟨own, fun x => if x = j then slot size ts else sl x, js, ?_⟩
  d_auto
  · intro j' ts' h'
    by_cases e : j' = j
    · subst e; simp [WPc.holds] at h'
    · rw [if_neg e] at h'
      obtain ⟨g1, g2⟩ := i3 _ _ h'
      have hx : slot size ts' ≠ slot size ts := fun hx => e (by rw [← g2, ← hg.2, hx])
      rw [if_neg hx]
      exact ⟨g1, g2⟩
  · intro x hx
    by_cases e : x = slot size ts
    · subst e
      rw [hg.2]
      refine ⟨by simp [WPc.done], i4 j ts h, by simp, fun hj => ?_, fun hr => ?_⟩
      · have := i7 j hj; rw [h] at this; cases this
      · have := i10 (slot size ts) (by rw [hr]; rfl)
        rw [hg.1, hfb] at this; cases this
    · rw [if_neg e] at hx
      obtain ⟨g1, g2, g3, g4⟩ := i5 x hx
      have ho : own x ≠ j := by rintro rfl; rw [h] at g1; cases g1
      rw [if_neg ho, if_neg ho]
      exact ⟨g1, g2, g3, g4⟩

theorem inv_incr (n : Inv size payload s own sl js) (j : Nat) (h : s.wpc j = .incr) :
    ∃ own' sl' js', Inv size payload ({ s with len := (s.len + 1) % W }.at j .accepted) own' sl' js' := by
  obtain ⟨i1, i2, i3, i4, i5, i6, i7, i8, i9, i10, i11⟩ := n
  have hne : emptyL ≠ busyL := by decide
  have hfe : full emptyL = false := by decide
  have hfb : full busyL = false := by decide
  have hf := full_iff
  refine ⟨own, sl, js, ?_⟩
  d_auto

theorem inv_chkFull (n : Inv size payload s own sl js) (j : Nat) (h : s.wpc j = .chk) (h1 : s.len = size) :
    ∃ own' sl' js', Inv size payload (s.at j .dropped) own' sl' js' := by
  obtain ⟨i1, i2, i3, i4, i5, i6, i7, i8, i9, i10, i11⟩ := n
  have hne : emptyL ≠ busyL := by decide
  have hfe : full emptyL = false := by decide
  have hfb : full busyL = false := by decide
  have hf := full_iff
  refine ⟨own, sl, js, ?_⟩
  d_auto

theorem inv_chkRetry (n : Inv size payload s own sl js) (j : Nat) (h : s.wpc j = .chk) (h1 : s.len ≠ size) :
    ∃ own' sl' js', Inv size payload (s.at j .add) own' sl' js' := by
  obtain ⟨i1, i2, i3, i4, i5, i6, i7, i8, i9, i10, i11⟩ := n
  have hne : emptyL ≠ busyL := by decide
  have hfe : full emptyL = false := by decide
  have hfb : full busyL = false := by decide
  have hf := full_iff
  refine ⟨own, sl, js, ?_⟩
  d_auto

theorem inv_nextNone (n : Inv size payload s own sl js) (h : s.rpc = .idle) (h1 : s.len = 0) :
    ∃ own' sl' js', Inv size payload s own' sl' js' := by
  obtain ⟨i1, i2, i3, i4, i5, i6, i7, i8, i9, i10, i11⟩ := n
  have hne : emptyL ≠ busyL := by decide
  have hfe : full emptyL = false := by decide
  have hfb : full busyL = false := by decide
  have hf := full_iff
  refine ⟨own, sl, js, ?_⟩
  d_auto

theorem inv_nextCrash (n : Inv size payload s own sl js) (h : s.rpc = .idle) (h1 : s.len ≠ 0) (h2 : size = 0) :
    ∃ own' sl' js', Inv size payload { s with crashed := true } own' sl' js' := by
  obtain ⟨i1, i2, i3, i4, i5, i6, i7, i8, i9, i10, i11⟩ := n
  have hne : emptyL ≠ busyL := by decide
  have hfe : full emptyL = false := by decide
  have hfb : full busyL = false := by decide
  have hf := full_iff
  refine ⟨own, sl, js, ?_⟩
  d_auto

theorem inv_next (n : Inv size payload s own sl js) (h : s.rpc = .idle) (h1 : s.len ≠ 0) (h2 : size ≠ 0) :
    ∃ own' sl' js', Inv size payload { s with rpc := .spin (slot size s.rd) } own' sl' js' := by
  obtain ⟨i1, i2, i3, i4, i5, i6, i7, i8, i9, i10, i11⟩ := n
  have hne : emptyL ≠ busyL := by decide
  have hfe : full emptyL = false := by decide
  have hfb : full busyL = false := by decide
  have hf := full_iff
  refine ⟨own, sl, js, ?_⟩
  d_auto

theorem inv_spinWait (n : Inv size payload s own sl js) (i : Nat) (h : s.rpc = .spin i) (h1 : s.lock i = emptyL ∨ s.lock i = busyL) :
    ∃ own' sl' js', Inv size payload s own' sl' js' := by
  obtain ⟨i1, i2, i3, i4, i5, i6, i7, i8, i9, i10, i11⟩ := n
  have hne : emptyL ≠ busyL := by decide
  have hfe : full emptyL = false := by decide
  have hfb : full busyL = false := by decide
  have hf := full_iff
  refine ⟨own, sl, js, ?_⟩
  d_auto

theorem inv_spinEnd (n : Inv size payload s own sl js) (i : Nat) (h : s.rpc = .spin i) (h1 : s.lock i ≠ emptyL) (h2 : s.lock i ≠ busyL) :
    ∃ own' sl' js', Inv size payload { s with rpc := .view i } own' sl' js' := by
  obtain ⟨i1, i2, i3, i4, i5, i6, i7, i8, i9, i10, i11⟩ := n
  have hne : emptyL ≠ busyL := by decide
  have hfe : full emptyL = false := by decide
  have hfb : full busyL = false := by decide
  have hf := full_iff
  refine ⟨own, sl, js, ?_⟩
  d_auto

theorem inv_view (n : Inv size payload s own sl js) (i : Nat) (h : s.rpc = .view i) :
    ∃ own' sl' js', Inv size payload { s with log := s.log ++ [s.buf i], rpc := .clear i } own' sl' js' := by
  obtain ⟨i1, i2, i3, i4, i5, i6, i7, i8, i9, i10, i11⟩ := n
  have hne : emptyL ≠ busyL := by decide
  have hfe : full emptyL = false := by decide
  have hfb : full busyL = false := by decide
  have hf := full_iff
  refine ⟨own, sl, js ++ [own i], ?_⟩
  d_auto

theorem inv_clear (n : Inv size payload s own sl js) (i : Nat) (h : s.rpc = .clear i) :
    ∃ own' sl' js', Inv size payload { s with lock := fun x => if x = i then emptyL else s.lock x, rpc := .decr } own' sl' js' := by
  obtain ⟨i1, i2, i3, i4, i5, i6, i7, i8, i9, i10, i11⟩ := n
  have hne : emptyL ≠ busyL := by decide
  have hfe : full emptyL = false := by decide
  have hfb : full busyL = false := by decide
  have hf := full_iff
  refine ⟨own, sl, js, ?_⟩
  d_auto

theorem inv_decr (n : Inv size payload s own sl js) (h : s.rpc = .decr) :
    ∃ own' sl' js', Inv size payload { s with len := (s.len + (W - 1)) % W, rd := (s.rd + 1) % W, rpc := .idle } own' sl' js' := by
  obtain ⟨i1, i2, i3, i4, i5, i6, i7, i8, i9, i10, i11⟩ := n
  have hne : emptyL ≠ busyL := by decide
  have hfe : full emptyL = false := by decide
  have hfb : full busyL = false := by decide
  have hf := full_iff
  refine ⟨own, sl, js, ?_⟩
  d_auto

theorem inv_step (n : Inv size payload s own sl js) (ha : s'.attempts < W - 2) (st : Step size payload s s') :
    ∃ own' sl' js', Inv size payload s' own' sl' js' := by
  cases st with
  | callEmpty j h h1 => exact inv_callEmpty n j h h1
  | call j h h1 => exact inv_call n j h h1
  | add j h h1 => exact inv_add n j h h1 ha
  | addCrash j h h1 => exact inv_addCrash n j h h1
  | loadEmpty j ts h h1 => exact inv_loadEmpty n j ts h h1
  | loadBusy j ts h h1 => exact inv_loadBusy n j ts h h1
  | loadFull j ts h h1 h2 => exact inv_loadFull n j ts h h1 h2
  | casOk j ts h h1 => exact inv_casOk n j ts h h1
  | casFail j ts h h1 => exact inv_casFail n j ts h h1
  | copy j ts h => exact inv_copy n j ts h
  | store j ts h => exact inv_store n j ts h ha
  | incr j h => exact inv_incr n j h
  | chkFull j h h1 => exact inv_chkFull n j h h1
  | chkRetry j h h1 => exact inv_chkRetry n j h h1
  | nextNone h h1 => exact inv_nextNone n h h1
  | nextCrash h h1 h2 => exact inv_nextCrash n h h1 h2
  | next h h1 h2 => exact inv_next n h h1 h2
  | spinWait i h h1 => exact inv_spinWait n i h h1
  | spinEnd i h h1 h2 => exact inv_spinEnd n i h h1 h2
  | view i h => exact inv_view n i h
  | clear i h => exact inv_clear n i h
  | decr h => exact inv_decr n h

theorem inv_init : Inv size payload (init : St α) (fun _ => 0) (fun _ => 0) [] := by
  have hfe : full emptyL = false := by decide
  constructor <;> simp [init, WPc.ticket, WPc.holds, WPc.done, RPc.on, hfe]

theorem attempts_mono (st : Step size payload s s') : s.attempts ≤ s'.attempts := by
  cases st <;> simp [St.at]

theorem inv_reach (r : Reach size payload s) (ha : s.attempts < W - 2) :
    ∃ own sl js, Inv size payload s own sl js := by
  induction r with
  | init => exact ⟨_, _, _, inv_init⟩
  | step _ st ih =>
    obtain ⟨own, sl, js, n⟩ := ih (Nat.lt_of_le_of_lt (attempts_mono st) ha)
    exact inv_step n ha st

/-! ## The fill counter -/

/-- `inc`: the writers about to add to the counter; `fl`: the full slots. -/
structure Cnt (size : Nat) (s : St α) (inc fl : List Nat) : Prop where
  incN : inc.Nodup
  incM : ∀ j, j ∈ inc ↔ s.wpc j = .incr
  flN : fl.Nodup
  flM : ∀ i, i ∈ fl ↔ full (s.lock i) = true
  flS : ∀ i, i ∈ fl → i < size
  len : s.len + inc.length = fl.length + (if s.rpc = .decr then 1 else 0)
  pos : s.rpc.busy = true → 1 ≤ s.len
  ok : size ≠ 0 → s.crashed = false

theorem nodup_lt {l : List Nat} (h : l.Nodup) (hs : ∀ i, i ∈ l → i < size) : l.length ≤ size := by
  have := List.Subperm.length_le (List.subperm_of_subset h (fun i hi => List.mem_range.2 (hs i hi)))
  simpa using this

variable {inc fl : List Nat}

theorem Cnt.le (c : Cnt size s inc fl) : s.len ≤ size + 1 := by
  have := nodup_lt c.flN c.flS
  have := c.len
  split at this <;> omega

theorem Cnt.same (c : Cnt size s inc fl) (h1 : ∀ j, s'.wpc j = .incr ↔ s.wpc j = .incr)
    (h2 : ∀ i, full (s'.lock i) = full (s.lock i)) (h3 : s'.len = s.len) (h4 : s'.rpc = .decr ↔ s.rpc = .decr)
    (h5 : s'.rpc.busy = true → 1 ≤ s'.len) (h6 : size ≠ 0 → s'.crashed = false) : ∃ inc fl, Cnt size s' inc fl := by
  obtain ⟨c1, c2, c3, c4, c5, c6, c7, c8⟩ := c
  refine ⟨inc, fl, c1, fun j => by rw [c2, h1], c3, fun i => by rw [c4, h2], c5, ?_, h5, h6⟩
  rw [h3, c6]
  by_cases h : s.rpc = .decr
  · simp [h, h4.2 h]
  · simp [h, mt h4.1 h]

theorem cnt_step {own sl : Nat → Nat} {js : List Nat} (hs : size ≠ 0) (hz : size < W - 2) (n : Inv size payload s own sl js)
    (c : Cnt size s inc fl) (ha : s'.attempts < W - 2)
    (st : Step size payload s s') : ∃ inc fl, Cnt size s' inc fl := by
  have hfe : full emptyL = false := by decide
  have hfb : full busyL = false := by decide
  have cle := c.le
  have upd : ∀ j q, s.wpc j ≠ .incr → q ≠ WPc.incr → ∀ i, (if i = j then q else s.wpc i) = .incr ↔ s.wpc i = .incr := by
    intro j q h1 h2 i
    by_cases h : i = j
    · subst h; simp [h1, h2]
    · simp [h]
  cases st with
  | callEmpty j h h1 => exact c.same (upd _ _ (by simp [h]) (by simp)) (fun _ => rfl) rfl Iff.rfl c.pos c.ok
  | call j h h1 => exact c.same (upd _ _ (by simp [h]) (by simp)) (fun _ => rfl) rfl Iff.rfl c.pos c.ok
  | add j h h1 => exact c.same (upd _ _ (by simp [h]) (by simp)) (fun _ => rfl) rfl Iff.rfl c.pos c.ok
  | addCrash j h h1 => exact c.same (fun _ => Iff.rfl) (fun _ => rfl) rfl Iff.rfl c.pos (fun h => absurd h1 h)
  | loadEmpty j ts h h1 => exact c.same (upd _ _ (by simp [h]) (by simp)) (fun _ => rfl) rfl Iff.rfl c.pos c.ok
  | loadBusy j ts h h1 => exact c.same (upd _ _ (by simp [h]) (by simp)) (fun _ => rfl) rfl Iff.rfl c.pos c.ok
  | loadFull j ts h h1 h2 => exact c.same (upd _ _ (by simp [h]) (by simp)) (fun _ => rfl) rfl Iff.rfl c.pos c.ok
  | casOk j ts h h1 =>
    refine c.same (upd _ _ (by simp [h]) (by simp)) (fun i => ?_) rfl Iff.rfl c.pos c.ok
    simp only [St.at]
    split
    · subst i; rw [hfb, h1, hfe]
    · rfl
  | casFail j ts h h1 => exact c.same (upd _ _ (by simp [h]) (by simp)) (fun _ => rfl) rfl Iff.rfl c.pos c.ok
  | copy j ts h => exact c.same (upd _ _ (by simp [h]) (by simp)) (fun _ => rfl) rfl Iff.rfl c.pos c.ok
  | store j ts h =>
    obtain ⟨c1, c2, c3, c4, c5, c6, c7, c8⟩ := c
    obtain ⟨g1, _⟩ := n.hold j ts (by rw [h]; rfl)
    have hlt := n.tick j ts (by rw [h]; rfl)
    have hts : full ts = true := by
      rw [full_iff]; simp only [St.at] at ha; unfold emptyL busyL W at *; omega
    have hnf : slot size ts ∉ fl := fun h' => by rw [c4, g1, hfb] at h'; cases h'
    refine ⟨j :: inc, slot size ts :: fl, List.nodup_cons.2 ⟨fun h' => ?_, c1⟩, fun i => ?_, List.nodup_cons.2 ⟨hnf, c3⟩, fun i => ?_,
      fun i hi => ?_, ?_, c7, c8⟩
    · rw [c2, h] at h'; cases h'
    · simp only [St.at, List.mem_cons, c2]
      by_cases e : i = j <;> simp [e]
    · simp only [St.at, List.mem_cons, c4]
      by_cases e : i = slot size ts
      · simp [e, hts]
      · simp [e]
    · rcases List.mem_cons.1 hi with e | hi
      · rw [e]; exact Nat.mod_lt _ (Nat.pos_of_ne_zero hs)
      · exact c5 i hi
    · simp only [St.at, List.length_cons] at c6 ⊢
      omega
  | incr j h =>
    obtain ⟨c1, c2, c3, c4, c5, c6, c7, c8⟩ := c
    have hm := (c2 j).2 h
    have hl := List.length_pos_of_mem hm
    have hlen : (s.len + 1) % W = s.len + 1 := Nat.mod_eq_of_lt (by omega)
    refine ⟨inc.erase j, fl, c1.erase j, fun i => ?_, c3, c4, c5, ?_, fun _ => ?_, c8⟩
    · rw [c1.mem_erase_iff, c2]
      by_cases e : i = j <;> simp [St.at, e]
    · simp only [St.at, hlen, List.length_erase_of_mem hm]
      omega
    · simp only [St.at, hlen]; omega
  | chkFull j h h1 => exact c.same (upd _ _ (by simp [h]) (by simp)) (fun _ => rfl) rfl Iff.rfl c.pos c.ok
  | chkRetry j h h1 => exact c.same (upd _ _ (by simp [h]) (by simp)) (fun _ => rfl) rfl Iff.rfl c.pos c.ok
  | nextNone h h1 => exact ⟨_, _, c⟩
  | nextCrash h h1 h2 => exact c.same (fun _ => Iff.rfl) (fun _ => rfl) rfl Iff.rfl c.pos (fun h => absurd h2 h)
  | next h h1 h2 =>
    exact c.same (fun _ => Iff.rfl) (fun _ => rfl) rfl (by simp [h]) (fun _ => Nat.pos_of_ne_zero h1) c.ok
  | spinWait i h h1 => exact ⟨_, _, c⟩
  | spinEnd i h h1 h2 =>
    exact c.same (fun _ => Iff.rfl) (fun _ => rfl) rfl (by simp [h]) (fun _ => c.pos (by rw [h]; rfl)) c.ok
  | view i h =>
    exact c.same (fun _ => Iff.rfl) (fun _ => rfl) rfl (by simp [h]) (fun _ => c.pos (by rw [h]; rfl)) c.ok
  | clear i h =>
    obtain ⟨c1, c2, c3, c4, c5, c6, c7, c8⟩ := c
    have hm := (c4 i).2 (n.rdr i (by rw [h]; rfl))
    have hl := List.length_pos_of_mem hm
    refine ⟨inc, fl.erase i, c1, c2, c3.erase i, fun x => ?_, fun x hx => c5 x (List.mem_of_mem_erase hx), ?_,
      fun _ => c7 (by rw [h]; rfl), c8⟩
    · rw [c3.mem_erase_iff, c4]
      by_cases e : x = i <;> simp [e, hfe]
    · simp only [h] at c6
      simp only [List.length_erase_of_mem hm, if_true]
      simp at c6
      omega
  | decr h =>
    obtain ⟨c1, c2, c3, c4, c5, c6, c7, c8⟩ := c
    have hp := c7 (by rw [h]; rfl)
    have hlen : (s.len + (W - 1)) % W = s.len - 1 := by unfold W at *; omega
    refine ⟨inc, fl, c1, c2, c3, c4, c5, ?_, fun h' => absurd h' (by simp [RPc.busy]), c8⟩
    simp only [h, if_true] at c6
    simp only [hlen]
    simp
    omega

theorem cnt_init : Cnt size (init : St α) [] [] := by
  have hfe : full emptyL = false := by decide
  constructor <;> simp [init, hfe, RPc.busy]

theorem cnt_reach (hs : size ≠ 0) (hz : size < W - 2) (r : Reach size payload s) (ha : s.attempts < W - 2) :
    ∃ inc fl, Cnt size s inc fl := by
  induction r with
  | init => exact ⟨_, _, cnt_init⟩
  | step r st ih =>
    have ha' := Nat.lt_of_le_of_lt (attempts_mono st) ha
    obtain ⟨inc, fl, c⟩ := ih ha'
    obtain ⟨own, sl, js, n⟩ := inv_reach r ha'
    exact cnt_step hs hz n c ha st

end Verif.Decouple
