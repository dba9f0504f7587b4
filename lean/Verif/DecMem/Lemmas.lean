import Verif.DecMem.Spec
import Verif.Decouple.Conc
/-!
# Simulation by the model without memory
-/
set_option linter.unusedVariables false
namespace Verif.DecMem
open Verif.Decouple (W emptyL busyL slot full full_iff)

variable {α : Type} {size : Nat}

/-- The place of a `Write` call in the model without memory. -/
def WPc.abs : WPc → Decouple.WPc
  | .new => .new
  | .add => .add
  | .load ts => .load ts
  | .cas ts => .cas ts
  | .grow ts => .copy ts
  | .fill ts _ _ _ => .copy ts
  | .store ts => .store ts
  | .incr => .incr
  | .accepted => .accepted
  | .chk => .chk
  | .dropped => .dropped

/-- The place of the reader. -/
def RPc.abs : RPc α → Decouple.RPc
  | .idle => .idle
  | .spin i => .spin i
  | .look i => .view i
  | .view i _ _ => .view i
  | .clear i => .clear i
  | .decr => .decr

/-- The state in the model without memory; `buf` is not determined by the memory. -/
def St.abs (s : St α) (buf : Nat → List α) : Decouple.St α where
  rd := s.rd
  wr := s.wr
  len := s.len
  lock := s.lock
  buf := buf
  wpc := fun j => (s.wpc j).abs
  rpc := s.rpc.abs
  log := s.log
  attempts := s.attempts
  crashed := s.crashed

/-- In the model without memory, the arguments of calls to come may be changed. -/
theorem reach_payload {payload : Nat → List α} {a : Decouple.St α} (r : Decouple.Reach size payload a) {j : Nat}
    (v : List α) : a.wpc j = .new → Decouple.Reach size (upd payload j v) a := by
  induction r with
  | init => intro _; exact .init
  | @step s s' r st ih =>
    intro h
    have hs : s.wpc j = .new ∧ Decouple.Step size (upd payload j v) s s' := by
      have key : ∀ (t : Decouple.St α) (j' : Nat) (q : Decouple.WPc), t.wpc = s.wpc → q ≠ .new → (t.at j' q).wpc j = .new → j ≠ j' ∧ s.wpc j = .new := by
        intro t j' q ht hq hn
        simp only [Decouple.St.at] at hn
        by_cases e : j = j'
        · rw [if_pos e] at hn; exact absurd hn hq
        · rw [if_neg e, ht] at hn; exact ⟨e, hn⟩
      cases st with
      | callEmpty j' h1 h2 =>
        obtain ⟨e, g⟩ := key s j' _ rfl (by simp) h
        exact ⟨g, .callEmpty s j' h1 (by rw [upd, if_neg (Ne.symm e)]; exact h2)⟩
      | call j' h1 h2 =>
        obtain ⟨e, g⟩ := key s j' _ rfl (by simp) h
        exact ⟨g, .call s j' h1 (by rw [upd, if_neg (Ne.symm e)]; exact h2)⟩
      | copy j' ts h1 =>
        obtain ⟨e, g⟩ := key _ j' _ rfl (by simp) h
        refine ⟨g, ?_⟩
        have := Decouple.Step.copy (size := size) (payload := upd payload j v) s j' ts h1
        rwa [show upd payload j v j' = payload j' from if_neg (Ne.symm e)] at this
      | add j' h1 h2 => exact ⟨(key _ j' _ rfl (by simp) h).2, .add s j' h1 h2⟩
      | addCrash j' h1 h2 => exact ⟨h, .addCrash s j' h1 h2⟩
      | loadEmpty j' ts h1 h2 => exact ⟨(key s j' _ rfl (by simp) h).2, .loadEmpty s j' ts h1 h2⟩
      | loadBusy j' ts h1 h2 => exact ⟨(key s j' _ rfl (by simp) h).2, .loadBusy s j' ts h1 h2⟩
      | loadFull j' ts h1 h2 h3 => exact ⟨(key s j' _ rfl (by simp) h).2, .loadFull s j' ts h1 h2 h3⟩
      | casOk j' ts h1 h2 => exact ⟨(key _ j' _ rfl (by simp) h).2, .casOk s j' ts h1 h2⟩
      | casFail j' ts h1 h2 => exact ⟨(key s j' _ rfl (by simp) h).2, .casFail s j' ts h1 h2⟩
      | store j' ts h1 => exact ⟨(key _ j' _ rfl (by simp) h).2, .store s j' ts h1⟩
      | incr j' h1 => exact ⟨(key _ j' _ rfl (by simp) h).2, .incr s j' h1⟩
      | chkFull j' h1 h2 => exact ⟨(key s j' _ rfl (by simp) h).2, .chkFull s j' h1 h2⟩
      | chkRetry j' h1 h2 => exact ⟨(key s j' _ rfl (by simp) h).2, .chkRetry s j' h1 h2⟩
      | nextNone h1 h2 => exact ⟨h, .nextNone s h1 h2⟩
      | nextCrash h1 h2 h3 => exact ⟨h, .nextCrash s h1 h2 h3⟩
      | next h1 h2 h3 => exact ⟨h, .next s h1 h2 h3⟩
      | spinWait i h1 h2 => exact ⟨h, .spinWait s i h1 h2⟩
      | spinEnd i h1 h2 h3 => exact ⟨h, .spinEnd s i h1 h2 h3⟩
      | view i h1 => exact ⟨h, .view s i h1⟩
      | clear i h1 => exact ⟨h, .clear s i h1⟩
      | decr h1 => exact ⟨h, .decr s h1⟩
    exact (ih hs.1).step hs.2

/-- `buf`: what the slots are meant to contain; `owner`: the slot each byte of memory was allocated for. -/
structure Inv (size : Nat) (s : St α) (buf : Nat → List α) (owner : Nat → Nat) : Prop where
  reach : Decouple.Reach size s.arg (s.abs buf)
  arg : ∀ j, (s.wpc j).outside = false → s.src j = s.arg j
  hdr : ∀ i, (s.hdr i).len ≤ (s.hdr i).cap ∧ ∀ x, x < (s.hdr i).cap → (s.hdr i).base + x < s.brk ∧ owner ((s.hdr i).base + x) = i
  fill : ∀ j ts b c k, s.wpc j = .fill ts b c k → (s.src j).length ≤ c ∧ k ≤ (s.src j).length ∧
    (∀ x, x < c → b + x < s.brk ∧ owner (b + x) = slot size ts) ∧ ∀ x, x < k → some (s.mem (b + x)) = (s.src j)[x]?
  stored : ∀ j ts, s.wpc j = .store ts → content s.mem (s.hdr (slot size ts)) = s.arg j
  full : ∀ i, full (s.lock i) = true → s.rpc ≠ .clear i → (∀ h got, s.rpc ≠ .view i h got) → content s.mem (s.hdr i) = buf i
  view : ∀ i h got, s.rpc = .view i h got → h = s.hdr i ∧ h.len = (buf i).length ∧ got = (buf i).take got.length ∧
    ∀ x, got.length ≤ x → x < h.len → some (s.mem (h.base + x)) = (buf i)[x]?

theorem content_iff {mem : Nat → α} {h : Hdr} {l : List α} :
    content mem h = l ↔ h.len = l.length ∧ ∀ x, x < h.len → some (mem (h.base + x)) = l[x]? := by
  constructor
  · rintro rfl
    refine ⟨by simp [content], fun x hx => ?_⟩
    simp [content, hx]
  · rintro ⟨h1, h2⟩
    apply List.ext_getElem?
    intro x
    by_cases hx : x < h.len
    · rw [← h2 x hx]; simp [content, hx]
    · rw [List.getElem?_eq_none (by simpa [content] using hx), List.getElem?_eq_none (by omega)]

theorem content_congr {mem mem' : Nat → α} {h : Hdr} (e : ∀ x, x < h.len → mem' (h.base + x) = mem (h.base + x)) :
    content mem' h = content mem h := by
  unfold content
  apply List.map_congr_left
  intro x hx
  exact e x (List.mem_range.1 hx)

theorem abs_at (s : St α) (buf : Nat → List α) (j : Nat) (p : WPc) : (s.at j p).abs buf = (s.abs buf).at j p.abs := by
  unfold St.at St.abs Decouple.St.at upd
  congr 1
  funext i
  dsimp only
  split <;> rfl

variable {s s' : St α} {buf : Nat → List α} {owner own sl : Nat → Nat} {js : List Nat}

/-- Steps that leave the memory alone and publish nothing. -/
theorem Inv.quiet (i : Inv size s buf owner) (r : Decouple.Reach size s'.arg (s'.abs buf)) (e1 : s'.mem = s.mem) (e2 : s'.hdr = s.hdr)
    (e3 : s'.brk = s.brk) (e4 : s'.src = s.src) (e5 : ∀ j, (s'.wpc j).outside = false → s'.arg j = s.src j)
    (hw : ∀ j ts b c k, s'.wpc j = .fill ts b c k → s.wpc j = .fill ts b c k)
    (hs : ∀ j ts, s'.wpc j = .store ts → s.wpc j = .store ts ∧ s'.arg j = s.arg j)
    (hf : ∀ i, Decouple.full (s'.lock i) = true → s'.rpc ≠ .clear i → (∀ h got, s'.rpc ≠ .view i h got) →
      Decouple.full (s.lock i) = true ∧ s.rpc ≠ .clear i ∧ ∀ h got, s.rpc ≠ .view i h got)
    (hv : ∀ i h got, s'.rpc = .view i h got → s.rpc = .view i h got) : Inv size s' buf owner := by
  refine ⟨r, fun j h => ?_, fun x => ?_, fun j ts b c k h => ?_, fun j ts h => ?_, fun x h1 h2 h3 => ?_, fun x h got h1 => ?_⟩
  · rw [e4]; exact (e5 j h).symm
  · rw [e2, e3]; exact i.hdr x
  · rw [e1, e3, e4]; exact i.fill j ts b c k (hw _ _ _ _ _ h)
  · rw [e1, e2, (hs _ _ h).2]; exact i.stored j ts (hs _ _ h).1
  · obtain ⟨g1, g2, g3⟩ := hf x h1 h2 h3
    rw [e1, e2]; exact i.full x g1 g2 g3
  · rw [e1, e2]; exact i.view x h got (hv _ _ _ h1)

/-- A step of a writer that leaves the memory alone. -/
theorem Inv.writer (i : Inv size s buf owner) {j : Nat} {q : WPc} {t : St α} (r : Decouple.Reach size t.arg ((t.at j q).abs buf))
    (e1 : t.mem = s.mem) (e2 : t.hdr = s.hdr) (e3 : t.brk = s.brk) (e4 : t.src = s.src) (e5 : t.arg = s.arg) (e6 : t.wpc = s.wpc) (e7 : t.rpc = s.rpc)
    (h : (s.wpc j).outside = false) (hq : q.abs.holds = none)
    (hf : ∀ i, Decouple.full (t.lock i) = true → Decouple.full (s.lock i) = true) : Inv size (t.at j q) buf owner := by
  have ha := i.arg
  refine i.quiet r e1 e2 e3 e4 (fun j' h' => ?_) (fun j' ts b c k h' => ?_) (fun j' ts h' => ?_) (fun i' h1 h2 h3 => ?_) (fun i' h' got g => ?_)
  · simp only [St.at, upd, e5] at h' ⊢
    by_cases e : j' = j
    · subst e; exact (ha _ h).symm
    · rw [if_neg e, e6] at h'; exact (ha _ h').symm
  · simp only [St.at, upd] at h'
    by_cases e : j' = j
    · rw [if_pos e] at h'; subst h'; simp [WPc.abs, Decouple.WPc.holds] at hq
    · rwa [if_neg e, e6] at h'
  · simp only [St.at, upd] at h'
    by_cases e : j' = j
    · rw [if_pos e] at h'; subst h'; simp [WPc.abs, Decouple.WPc.holds] at hq
    · rw [if_neg e, e6] at h'
      exact ⟨h', by simp only [St.at, e5]⟩
  · simp only [St.at, e7] at h1 h2 h3
    exact ⟨hf _ h1, h2, h3⟩
  · simpa only [St.at, e7] using g

theorem outside_arg (i : Inv size s buf owner) {j : Nat} (h : s.wpc j = .new) : (s.abs buf).wpc j = .new := by
  simp [St.abs, h, WPc.abs]

/-- A byte that belongs to one slot is written: the others do not change. -/
theorem other_content (i : Inv size s buf owner) {a x i' : Nat} {v : α} (ho : owner a = x) (hne : i' ≠ x) :
    content (upd s.mem a v) (s.hdr i') = content s.mem (s.hdr i') := by
  apply content_congr
  intro y hy
  have h1 := i.hdr i'
  have h2 := (h1.2 y (by omega)).2
  unfold upd
  rw [if_neg]
  rintro rfl
  exact hne (h2.symm.trans ho)

theorem inv_step (i : Inv size s buf owner) (n : Decouple.Inv size s.arg (s.abs buf) own sl js) (st : Step size s s') :
    ∃ buf' owner', Inv size s' buf' owner' := by
  have hb : Decouple.full busyL = false := by decide
  have he : Decouple.full emptyL = false := by decide
  have hold : ∀ j ts, (s.wpc j).abs.holds = some ts → s.lock (slot size ts) = busyL ∧ own (slot size ts) = j := n.hold
  have hrdr : ∀ i, s.rpc.abs.on = some i → Decouple.full (s.lock i) = true := n.rdr
  have hupd : ∀ ts l, l = busyL ∨ l = emptyL → ∀ i, Decouple.full (upd s.lock ts l i) = true → Decouple.full (s.lock i) = true := by
    intro ts l hl i' h
    unfold upd at h
    split at h
    · rcases hl with rfl | rfl
      · rw [hb] at h; cases h
      · rw [he] at h; cases h
    · exact h
  cases st with
  | poke j l h =>
    refine ⟨buf, owner, i.reach, fun j' h' => ?_, i.hdr, fun j' ts b c k h' => ?_, i.stored, i.full, i.view⟩
    · have : j' ≠ j := by rintro rfl; simp only at h'; rw [h'] at h; cases h
      simp only [upd, if_neg this]; exact i.arg j' h'
    · have : j' ≠ j := by rintro rfl; simp only at h'; rw [h'] at h; cases h
      simp only [upd, if_neg this]; exact i.fill j' ts b c k h'
  | callEmpty j h h1 =>
    refine ⟨buf, owner, i.quiet ?_ rfl rfl rfl rfl (fun j' h' => ?_) (fun j' ts b c k h' => ?_) (fun j' ts h' => ?_) (fun i' h1 h2 h3 => ⟨h1, h2, h3⟩) (fun i' h' got g => g)⟩
    · rw [abs_at]
      refine (reach_payload i.reach (s.src j) (outside_arg i h)).step (.callEmpty _ j (outside_arg i h) ?_)
      simp [upd, h1]
    · simp only [St.at, upd] at h' ⊢
      by_cases e : j' = j
      · simp [e]
      · rw [if_neg e] at h' ⊢; exact (i.arg j' h').symm
    · simp only [St.at, upd] at h'
      by_cases e : j' = j
      · simp [e] at h'
      · rwa [if_neg e] at h'
    · simp only [St.at, upd] at h' ⊢
      by_cases e : j' = j
      · simp [e] at h'
      · rw [if_neg e] at h' ⊢; exact ⟨h', rfl⟩
  | call j h h1 =>
    refine ⟨buf, owner, i.quiet ?_ rfl rfl rfl rfl (fun j' h' => ?_) (fun j' ts b c k h' => ?_) (fun j' ts h' => ?_) (fun i' h1 h2 h3 => ⟨h1, h2, h3⟩) (fun i' h' got g => g)⟩
    · rw [abs_at]
      refine (reach_payload i.reach (s.src j) (outside_arg i h)).step (.call _ j (outside_arg i h) ?_)
      simpa [upd] using h1
    · simp only [St.at, upd] at h' ⊢
      by_cases e : j' = j
      · simp [e]
      · rw [if_neg e] at h' ⊢; exact (i.arg j' h').symm
    · simp only [St.at, upd] at h'
      by_cases e : j' = j
      · simp [e] at h'
      · rwa [if_neg e] at h'
    · simp only [St.at, upd] at h' ⊢
      by_cases e : j' = j
      · simp [e] at h'
      · rw [if_neg e] at h' ⊢; exact ⟨h', rfl⟩
  | add j h h1 =>
    refine ⟨buf, owner, i.writer ?_ rfl rfl rfl rfl rfl rfl rfl (by rw [h]; rfl) rfl (fun _ g => g)⟩
    rw [abs_at]
    exact i.reach.step (.add _ j (by simp [St.abs, h, WPc.abs]) h1)
  | addCrash j h h1 =>
    exact ⟨buf, owner, i.reach.step (.addCrash _ j (by simp [St.abs, h, WPc.abs]) h1), i.arg, i.hdr, i.fill, i.stored, i.full, i.view⟩
  | loadEmpty j ts h h1 =>
    refine ⟨buf, owner, i.writer ?_ rfl rfl rfl rfl rfl rfl rfl (by rw [h]; rfl) rfl (fun _ g => g)⟩
    rw [abs_at]
    exact i.reach.step (.loadEmpty _ j ts (by simp [St.abs, h, WPc.abs]) h1)
  | loadBusy j ts h h1 =>
    refine ⟨buf, owner, i.writer ?_ rfl rfl rfl rfl rfl rfl rfl (by rw [h]; rfl) rfl (fun _ g => g)⟩
    rw [abs_at]
    exact i.reach.step (.loadBusy _ j ts (by simp [St.abs, h, WPc.abs]) h1)
  | loadFull j ts h h1 h2 =>
    refine ⟨buf, owner, i.writer ?_ rfl rfl rfl rfl rfl rfl rfl (by rw [h]; rfl) rfl (fun _ g => g)⟩
    rw [abs_at]
    exact i.reach.step (.loadFull _ j ts (by simp [St.abs, h, WPc.abs]) h1 h2)
  | casOk j ts h h1 =>
    refine ⟨buf, owner, i.quiet ?_ rfl rfl rfl rfl (fun j' h' => ?_) (fun j' ts' b c k h' => ?_) (fun j' ts' h' => ?_)
      (fun i' h1 h2 h3 => ⟨hupd _ _ (.inl rfl) _ h1, h2, h3⟩) (fun i' h' got g => g)⟩
    · rw [abs_at]
      exact i.reach.step (.casOk _ j ts (by simp [St.abs, h, WPc.abs]) h1)
    · simp only [St.at, upd] at h' ⊢
      by_cases e : j' = j
      · subst e; exact (i.arg j' (by rw [h]; rfl)).symm
      · rw [if_neg e] at h'; exact (i.arg j' h').symm
    · simp only [St.at, upd] at h'
      by_cases e : j' = j
      · simp [e] at h'
      · rwa [if_neg e] at h'
    · simp only [St.at, upd] at h' ⊢
      by_cases e : j' = j
      · simp [e] at h'
      · rw [if_neg e] at h'; exact ⟨h', trivial⟩
  | casFail j ts h h1 =>
    refine ⟨buf, owner, i.writer ?_ rfl rfl rfl rfl rfl rfl rfl (by rw [h]; rfl) rfl (fun _ g => g)⟩
    rw [abs_at]
    exact i.reach.step (.casFail _ j ts (by simp [St.abs, h, WPc.abs]) h1)
  | growHere j ts h h1 =>
    have hsame : ((s.at j (.fill ts (s.hdr (slot size ts)).base (s.hdr (slot size ts)).cap 0)).abs buf) = s.abs buf := by
      rw [abs_at]
      simp only [Decouple.St.at, St.abs, WPc.abs]
      congr 1
      funext j'
      by_cases e : j' = j
      · subst e; rw [if_pos rfl, h]
      · rw [if_neg e]
    refine ⟨buf, owner, by rw [hsame]; exact i.reach, fun j' h' => ?_, i.hdr, fun j' ts' b c k h' => ?_, fun j' ts' h' => ?_, i.full, i.view⟩
    · simp only [St.at, upd] at h' ⊢
      by_cases e : j' = j
      · subst e; exact i.arg j' (by rw [h]; rfl)
      · rw [if_neg e] at h'; exact i.arg j' h'
    · simp only [St.at, upd] at h' ⊢
      by_cases e : j' = j
      · subst e
        rw [if_pos rfl] at h'
        injection h' with e1 e2 e3 e4
        subst e1 e2 e3 e4
        exact ⟨h1, Nat.zero_le _, (i.hdr _).2, fun x hx => absurd hx (Nat.not_lt_zero _)⟩
      · rw [if_neg e] at h'; exact i.fill _ _ _ _ _ h'
    · simp only [St.at, upd] at h' ⊢
      by_cases e : j' = j
      · simp [e] at h'
      · rw [if_neg e] at h'; exact i.stored _ _ h'
  | growNew j ts c h h1 h2 =>
    have hsame : (({ s with brk := s.brk + c }.at j (.fill ts s.brk c 0)).abs buf) = s.abs buf := by
      rw [abs_at]
      simp only [Decouple.St.at, St.abs, WPc.abs]
      congr 1
      funext j'
      by_cases e : j' = j
      · subst e; rw [if_pos rfl, h]
      · rw [if_neg e]
    refine ⟨buf, fun a => if s.brk ≤ a then slot size ts else owner a, by rw [hsame]; exact i.reach, fun j' h' => ?_, fun i' => ?_, fun j' ts' b c k h' => ?_, fun j' ts' h' => ?_, i.full, i.view⟩
    · simp only [St.at, upd] at h' ⊢
      by_cases e : j' = j
      · subst e; exact i.arg j' (by rw [h]; rfl)
      · rw [if_neg e] at h'; exact i.arg j' h'
    · obtain ⟨g1, g2⟩ := i.hdr i'
      refine ⟨g1, fun x hx => ?_⟩
      obtain ⟨g3, g4⟩ := g2 x hx
      have hn : ¬ s.brk ≤ (s.hdr i').base + x := by omega
      exact ⟨show (s.hdr i').base + x < s.brk + c by omega, (if_neg hn).trans g4⟩
    · simp only [St.at, upd] at h' ⊢
      by_cases e : j' = j
      · subst e
        rw [if_pos rfl] at h'
        injection h' with e1 e2 e3 e4
        subst e1 e2 e3 e4
        refine ⟨h2, Nat.zero_le _, fun x hx => ⟨by omega, ?_⟩, fun x hx => absurd hx (Nat.not_lt_zero _)⟩
        rw [if_pos (by omega)]
      · rw [if_neg e] at h'
        obtain ⟨g1, g2, g3, g4⟩ := i.fill _ _ _ _ _ h'
        refine ⟨g1, g2, fun x hx => ?_, g4⟩
        obtain ⟨g5, g6⟩ := g3 x hx
        refine ⟨by omega, ?_⟩
        rw [if_neg (by omega)]; exact g6
    · simp only [St.at, upd] at h' ⊢
      by_cases e : j' = j
      · simp [e] at h'
      · rw [if_neg e] at h'; exact i.stored _ _ h'
  | fillByte j ts b c k x h h1 =>
    obtain ⟨f1, f2, f3, f4⟩ := i.fill j ts b c k h
    have hk : k < (s.src j).length := (List.getElem?_eq_some_iff.1 h1).1
    have ho := (f3 k (by omega)).2
    obtain ⟨l1, l2⟩ := hold j ts (by rw [h]; rfl)
    have hsame : (({ s with mem := upd s.mem (b + k) x }.at j (.fill ts b c (k + 1))).abs buf) = s.abs buf := by
      rw [abs_at]
      simp only [Decouple.St.at, St.abs, WPc.abs]
      congr 1
      funext j'
      by_cases e : j' = j
      · subst e; rw [if_pos rfl, h]
      · rw [if_neg e]
    refine ⟨buf, owner, by rw [hsame]; exact i.reach, fun j' h' => ?_, i.hdr, fun j' ts' b' c' k' h' => ?_, fun j' ts' h' => ?_, fun i' g1 g2 g3 => ?_, fun i' h' got g => ?_⟩
    · simp only [St.at, upd] at h' ⊢
      by_cases e : j' = j
      · subst e; exact i.arg j' (by rw [h]; rfl)
      · rw [if_neg e] at h'; exact i.arg j' h'
    · simp only [St.at, upd] at h' ⊢
      by_cases e : j' = j
      · subst e
        rw [if_pos rfl] at h'
        injection h' with e1 e2 e3 e4
        subst e1 e2 e3 e4
        refine ⟨f1, hk, f3, fun y hy => ?_⟩
        by_cases ey : y = k
        · subst ey; rw [if_pos rfl]; exact h1.symm
        · rw [if_neg (by omega)]; exact f4 y (by omega)
      · rw [if_neg e] at h'
        obtain ⟨g1, g2, g3, g4⟩ := i.fill _ _ _ _ _ h'
        refine ⟨g1, g2, g3, fun y hy => ?_⟩
        obtain ⟨l3, l4⟩ := hold j' ts' (by rw [h']; rfl)
        have hne : b' + y ≠ b + k := by
          intro e'
          have := (g3 y (by omega)).2
          rw [e', ho] at this
          rw [← this] at l4
          exact e (l4.symm.trans l2)
        rw [if_neg hne]; exact g4 y hy
    · simp only [St.at] at h' ⊢
      by_cases e : j' = j
      · simp [e, upd] at h'
      · rw [upd, if_neg e] at h'
        obtain ⟨l3, l4⟩ := hold j' ts' (by rw [h']; rfl)
        have hne : slot size ts' ≠ slot size ts := fun e' => e (by rw [← l4, e', l2])
        rw [other_content i ho hne]
        exact i.stored _ _ h'
    · have hne : i' ≠ slot size ts := by
        rintro rfl
        simp only [St.at] at g1
        rw [l1, hb] at g1; cases g1
      simp only [St.at]
      rw [other_content i ho hne]
      exact i.full i' g1 g2 g3
    · obtain ⟨v1, v2, v3, v4⟩ := i.view i' h' got g
      refine ⟨v1, v2, v3, fun y y1 y2 => ?_⟩
      have hne : i' ≠ slot size ts := by
        rintro rfl
        have := hrdr (slot size ts) (by have g' : s.rpc = _ := g; rw [g']; rfl)
        rw [l1, hb] at this; cases this
      simp only [St.at, upd]
      rw [if_neg, v4 y y1 y2]
      intro e'
      have g5 := i.hdr i'
      rw [← v1] at g5
      have := (g5.2 y (by omega)).2
      rw [e', ho] at this
      exact hne this.symm
  | fillEnd j ts b c k h h1 =>
    obtain ⟨f1, f2, f3, f4⟩ := i.fill j ts b c k h
    obtain ⟨l1, l2⟩ := hold j ts (by rw [h]; rfl)
    have ha := i.arg j (by rw [h]; rfl)
    have hnv : ∀ i' h' got, s.rpc = .view i' h' got → i' ≠ slot size ts := by
      rintro i' h' got g rfl
      have := hrdr (slot size ts) (by rw [g]; rfl)
      rw [l1, hb] at this; cases this
    refine ⟨upd buf (slot size ts) (s.arg j), owner, ?_, fun j' h' => ?_, fun i' => ?_, fun j' ts' b' c' k' h' => ?_, fun j' ts' h' => ?_, fun i' g1 g2 g3 => ?_, fun i' h' got g => ?_⟩
    · rw [abs_at]
      exact i.reach.step (.copy _ j ts (by simp [St.abs, h, WPc.abs]))
    · simp only [St.at, upd] at h' ⊢
      by_cases e : j' = j
      · subst e; exact ha
      · rw [if_neg e] at h'; exact i.arg j' h'
    · simp only [St.at, upd]
      by_cases e : i' = slot size ts
      · rw [if_pos e]
        subst e
        exact ⟨show k ≤ c by omega, f3⟩
      · rw [if_neg e]; exact i.hdr i'
    · simp only [St.at, upd] at h' ⊢
      by_cases e : j' = j
      · simp [e] at h'
      · rw [if_neg e] at h'; exact i.fill _ _ _ _ _ h'
    · simp only [St.at] at h' ⊢
      by_cases e : j' = j
      · subst e
        simp only [upd, if_true, WPc.store.injEq] at h'
        subst h'
        rw [upd, if_pos rfl, content_iff]
        rw [← ha]
        exact ⟨h1, f4⟩
      · rw [upd, if_neg e] at h'
        obtain ⟨l3, l4⟩ := hold j' ts' (by rw [h']; rfl)
        have hne : slot size ts' ≠ slot size ts := fun e' => e (by rw [← l4, e', l2])
        rw [upd, if_neg hne]
        exact i.stored _ _ h'
    · have hne : i' ≠ slot size ts := by
        rintro rfl
        simp only [St.at] at g1
        rw [l1, hb] at g1; cases g1
      simp only [St.at]
      rw [upd, if_neg hne, upd, if_neg hne]
      exact i.full i' g1 g2 g3
    · have hne := hnv i' h' got g
      simp only [St.at]
      rw [upd, if_neg hne, upd, if_neg hne]
      exact i.view i' h' got g
  | store j ts h =>
    have hst := i.stored j ts h
    have hbuf : buf (slot size ts) = s.arg j := n.stored j ts (by simp [St.abs, h, WPc.abs])
    refine ⟨buf, owner, ?_, fun j' h' => ?_, i.hdr, fun j' ts' b' c' k' h' => ?_, fun j' ts' h' => ?_, fun i' g1 g2 g3 => ?_, i.view⟩
    · rw [abs_at]
      exact i.reach.step (.store _ j ts (by simp [St.abs, h, WPc.abs]))
    · simp only [St.at, upd] at h' ⊢
      by_cases e : j' = j
      · subst e; exact i.arg _ (by rw [h]; rfl)
      · rw [if_neg e] at h'; exact i.arg j' h'
    · simp only [St.at, upd] at h' ⊢
      by_cases e : j' = j
      · simp [e] at h'
      · rw [if_neg e] at h'; exact i.fill _ _ _ _ _ h'
    · simp only [St.at, upd] at h' ⊢
      by_cases e : j' = j
      · simp [e] at h'
      · rw [if_neg e] at h'; exact i.stored _ _ h'
    · simp only [St.at] at g1 g2 g3 ⊢
      by_cases e : i' = slot size ts
      · subst e; rw [hst, hbuf]
      · rw [upd, if_neg e] at g1; exact i.full i' g1 g2 g3
  | incr j h =>
    refine ⟨buf, owner, i.writer ?_ rfl rfl rfl rfl rfl rfl rfl (by rw [h]; rfl) rfl (fun _ g => g)⟩
    rw [abs_at]
    exact i.reach.step (.incr _ j (by simp [St.abs, h, WPc.abs]))
  | chkFull j h h1 =>
    refine ⟨buf, owner, i.writer ?_ rfl rfl rfl rfl rfl rfl rfl (by rw [h]; rfl) rfl (fun _ g => g)⟩
    rw [abs_at]
    exact i.reach.step (.chkFull _ j (by simp [St.abs, h, WPc.abs]) h1)
  | chkRetry j h h1 =>
    refine ⟨buf, owner, i.writer ?_ rfl rfl rfl rfl rfl rfl rfl (by rw [h]; rfl) rfl (fun _ g => g)⟩
    rw [abs_at]
    exact i.reach.step (.chkRetry _ j (by simp [St.abs, h, WPc.abs]) h1)
  | nextNone h h1 => exact ⟨buf, owner, i⟩
  | nextCrash h h1 h2 =>
    exact ⟨buf, owner, i.reach.step (.nextCrash _ (by simp [St.abs, h, RPc.abs]) h1 h2), i.arg, i.hdr, i.fill, i.stored, i.full, i.view⟩
  | next h h1 h2 =>
    exact ⟨buf, owner, i.reach.step (.next _ (by simp [St.abs, h, RPc.abs]) h1 h2), i.arg, i.hdr, i.fill, i.stored,
      fun i' g1 _ _ => i.full i' g1 (by rw [h]; simp) (by rw [h]; simp), fun i' h' got g => by simp at g⟩
  | spinWait i' h h1 => exact ⟨buf, owner, i⟩
  | spinEnd x h h1 h2 =>
    exact ⟨buf, owner, i.reach.step (.spinEnd _ x (by simp [St.abs, h, RPc.abs]) h1 h2), i.arg, i.hdr, i.fill, i.stored,
      fun i' g1 _ _ => i.full i' g1 (by rw [h]; simp) (by rw [h]; simp), fun i' h' got g => by simp at g⟩
  | look x h =>
    have hc := i.full x (hrdr x (by rw [h]; rfl)) (by rw [h]; simp) (by rw [h]; simp)
    have hsame : ({ s with rpc := .view x (s.hdr x) [] } : St α).abs buf = s.abs buf := by
      simp [St.abs, h, RPc.abs]
    refine ⟨buf, owner, by rw [hsame]; exact i.reach, i.arg, i.hdr, i.fill, i.stored, fun i' g1 _ _ => i.full i' g1 (by rw [h]; simp) (by rw [h]; simp), fun i' h' got g => ?_⟩
    injection g with g1 g2 g3
    subst g1 g2 g3
    rw [content_iff] at hc
    exact ⟨rfl, hc.1, by simp, fun y _ hy => hc.2 y hy⟩
  | viewRead x h got hp hl =>
    obtain ⟨v1, v2, v3, v4⟩ := i.view x h got hp
    have hsame : ({ s with rpc := .view x h (got ++ [s.mem (h.base + got.length)]) } : St α).abs buf = s.abs buf := by
      simp [St.abs, hp, RPc.abs]
    refine ⟨buf, owner, by rw [hsame]; exact i.reach, i.arg, i.hdr, i.fill, i.stored, fun i' g1 _ g3 => i.full i' g1 (by rw [hp]; simp) (fun h' got' e => ?_), fun i' h' got' g => ?_⟩
    · rw [hp] at e
      injection e with e1 e2 e3
      exact g3 h _ (by rw [e1])
    · injection g with g1 g2 g3
      subst g1 g2 g3
      refine ⟨v1, v2, ?_, fun y y1 y2 => v4 y (by simp at y1; omega) y2⟩
      have := v4 got.length (Nat.le_refl _) hl
      rw [List.length_append, List.length_singleton, List.take_add_one, ← v3, ← this]
      rfl
  | viewWrite x h got p y hp hc hw =>
    obtain ⟨v1, v2, v3, v4⟩ := i.view x h got hp
    have hx := hrdr x (by rw [hp]; rfl)
    have ho : owner (h.base + p) = x := by
      have := (i.hdr x).2 p (v1 ▸ hc)
      rw [v1]; exact this.2
    have hbx : ∀ j' ts', (s.wpc j').abs.holds = some ts' → slot size ts' ≠ x := by
      rintro j' ts' h' rfl
      rw [(hold j' ts' h').1, hb] at hx; cases hx
    refine ⟨buf, owner, i.reach, i.arg, i.hdr, fun j' ts' b' c' k' h' => ?_, fun j' ts' h' => ?_, fun i' g1 g2 g3 => ?_, fun i' h' got' g => ?_⟩
    · obtain ⟨g1, g2, g3, g4⟩ := i.fill j' ts' b' c' k' h'
      refine ⟨g1, g2, g3, fun z hz => ?_⟩
      have hne : b' + z ≠ h.base + p := by
        intro e'
        have := (g3 z (by omega)).2
        rw [e', ho] at this
        exact hbx j' ts' (by have h'' : s.wpc j' = _ := h'; rw [h'']; rfl) this.symm
      simp only [upd]
      rw [if_neg hne]; exact g4 z hz
    · rw [other_content i ho (hbx j' ts' (by have h'' : s.wpc j' = _ := h'; rw [h'']; rfl))]
      exact i.stored _ _ h'
    · have hne : i' ≠ x := by
        rintro rfl
        exact g3 h got hp
      rw [other_content i ho hne]
      exact i.full i' g1 g2 g3
    · have g' : s.rpc = _ := g
      rw [hp] at g'
      injection g' with g1 g2 g3
      subst g1 g2 g3
      refine ⟨v1, v2, v3, fun z z1 z2 => ?_⟩
      simp only [upd]
      rw [if_neg (by omega)]
      exact v4 z z1 z2
  | viewEnd x h got hp hl =>
    obtain ⟨v1, v2, v3, v4⟩ := i.view x h got hp
    have hg : got = buf x := by
      rw [v3, hl, v2, List.take_length]
    have hst : Decouple.Step size s.arg (s.abs buf) (({ s with log := s.log ++ [got], rpc := .clear x } : St α).abs buf) := by
      have := Decouple.Step.view (size := size) (payload := s.arg) (s.abs buf) x (by simp [St.abs, hp, RPc.abs])
      rw [hg]; exact this
    refine ⟨buf, owner, i.reach.step hst, i.arg, i.hdr, i.fill, i.stored, fun i' g1 g2 _ => i.full i' g1 (by rw [hp]; simp) (fun h' got' e => ?_), fun i' h' got g => by simp at g⟩
    rw [hp] at e
    injection e with e1 e2 e3
    exact g2 (by rw [e1])
  | clear x h =>
    refine ⟨buf, owner, i.reach.step (.clear _ x (by simp [St.abs, h, RPc.abs])), i.arg, i.hdr, i.fill, i.stored, fun i' g1 _ _ => ?_, fun i' h' got g => by simp at g⟩
    have hne : i' ≠ x := by
      rintro rfl
      simp only [upd, if_true] at g1
      rw [he] at g1; cases g1
    simp only [upd, if_neg hne] at g1
    exact i.full i' g1 (by rw [h]; simp [Ne.symm hne]) (by rw [h]; simp)
  | decr h =>
    exact ⟨buf, owner, i.reach.step (.decr _ (by simp [St.abs, h, RPc.abs])), i.arg, i.hdr, i.fill, i.stored,
      fun i' g1 _ _ => i.full i' g1 (by rw [h]; simp) (by rw [h]; simp), fun i' h' got g => by simp at g⟩

theorem attempts_step (st : Step size s s') : s.attempts ≤ s'.attempts := by
  cases st <;> simp [St.at]

theorem inv_reach (r : Reach size s) (ha : s.attempts < W - 2) :
    ∃ buf owner own sl js, Inv size s buf owner ∧ Decouple.Inv size s.arg (s.abs buf) own sl js := by
  have key : ∃ buf owner, Inv size s buf owner := by
    induction r with
    | init mem src =>
      refine ⟨fun _ => [], fun _ => 0, .init, fun j h => ?_, fun i => ?_, fun j ts b c k h => ?_, fun j ts h => ?_, fun i h => ?_, fun i h got g => ?_⟩
      · simp [init, WPc.outside] at h
      · simp [init]
      · simp [init] at h
      · simp [init] at h
      · have he : Decouple.full emptyL = false := by decide
        simp only [init] at h; rw [he] at h; cases h
      · simp [init] at g
    | step _ st ih =>
      have ha' := Nat.lt_of_le_of_lt (attempts_step st) ha
      obtain ⟨buf, owner, i⟩ := ih ha'
      obtain ⟨own, sl, js, n⟩ := Decouple.inv_reach i.reach ha'
      exact inv_step i n st
  obtain ⟨buf, owner, i⟩ := key
  obtain ⟨own, sl, js, n⟩ := Decouple.inv_reach i.reach ha
  exact ⟨buf, owner, own, sl, js, i, n⟩

end Verif.DecMem
