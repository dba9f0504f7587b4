import Verif.GoPool.Model
/-!
# The invariant of the pool

Each worker is in one place: idle in `dobby`, with a `Run` call, in a channel with a value, with a busy
goroutine, with the collector, or in the `sync.Pool`.
-/
namespace Verif.GoPool
open Verif.Go

inductive Loc where
  | none | dobby | run (j : Nat) | chan (c j : Nat) | busy (k : Nat) | gc | pool | retired
  deriving DecidableEq

/-- The worker and the channel of a goroutine that has a value in hand. -/
def GorPc.busyOn : GorPc → Option (Nat × Nat)
  | .handling w c _ => some (w, c)
  | .stamp w c => some (w, c)
  | .free w c => some (w, c)
  | _ => none

/-- Workers the collector holds. -/
def GcPc.held : GcPc → List Nat
  | .closing ws => ws
  | .clearing w ws => w :: ws
  | .putting w ws => w :: ws
  | _ => []

/-- Those among them it has not closed yet. -/
def GcPc.todo : GcPc → List Nat
  | .closing ws => ws
  | .clearing _ ws => ws
  | .putting _ ws => ws
  | _ => []

def Loc.active : Loc → Bool
  | .run _ | .chan _ _ | .busy _ => true
  | _ => false

def Loc.waiting : Loc → Bool
  | .dobby | .run _ | .chan _ _ => true
  | _ => false

/-- `tok`: the place of each worker; `cw`: the worker a channel was made for; `rdr`: a goroutine that
reads the worker's channel; `jc`: the channel a job was sent to. -/
structure Inv (s : St) (tok : Nat → Loc) (cw rdr jc : Nat → Nat) : Prop where
  dobby1 : ∀ w, w ∈ s.dobby ↔ tok w = .dobby
  dobby2 : s.dobby.Nodup
  run : ∀ j w, s.job j = .sending w ↔ tok w = .run j
  chan1 : ∀ w c j, tok w = .chan c j → s.ch w = some c ∧ s.buf c = some j
  chan2 : ∀ c j, s.buf c = some j → tok (cw c) = .chan c j
  busy1 : ∀ k w c, (s.gor k).busyOn = some (w, c) → tok w = .busy k ∧ s.ch w = some c
  gc1 : ∀ w, w ∈ s.gc.held ↔ tok w = .gc
  gc2 : s.gc.held.Nodup
  gc3 : ∀ w, w ∈ s.gc.todo → s.ch w ≠ none ∧ ∀ c, s.ch w = some c → s.closed c = false
  pool1 : ∀ w, w ∈ s.pool → tok w = .pool
  pool2 : s.pool.Nodup
  fresh : ∀ w, s.nextW ≤ w → tok w = .none
  cw1 : ∀ w c, s.ch w = some c → cw c = w ∧ c < s.nextC
  active : ∀ w, (tok w).active = true → s.ch w ≠ none ∧ ∀ c, s.ch w = some c → s.closed c = false
  idle : ∀ w, tok w = .dobby → s.ch w ≠ none ∧ (s.maxWorkers ≠ -1 → ∀ c, s.ch w = some c → s.closed c = false)
  closed1 : ∀ c, s.closed c = true → c < s.nextC
  reader : ∀ w, (tok w).waiting = true → (s.maxWorkers = -1 → tok w ≠ .dobby) → s.gor (rdr w) = .start w ∨ s.gor (rdr w) = .recv w (s.ch w)
  rcv : ∀ k w c, s.gor k = .recv w (some c) → cw c = w ∧ c < s.nextC
  gfresh : ∀ k, s.nextG ≤ k → s.gor k = .unborn
  job1 : ∀ c j, s.buf c = some j → s.job j = .accepted ∧ s.handled j = 0 ∧ jc j = c
  job2 : ∀ j, s.job j ≠ .accepted → s.handled j = 0
  job3 : ∀ j, s.handled j ≤ 1
  job4 : ∀ j, s.job j = .accepted → s.handled j = 0 → s.buf (jc j) = some j
  max1 : s.maxWorkers = -1 ↔ s.gc = .dead
  ok : s.crashed = false

theorem cutLoop_some (ts : List Int) (now : Int) (l r : Nat) (hl : l ≤ r) (hr : r ≤ ts.length) :
    ∃ x, cutLoop ts now l r = some x ∧ l ≤ x ∧ x ≤ r := by
  induction hn : r - l using Nat.strongRecOn generalizing l r with
  | _ n ih =>
    rw [cutLoop]
    split
    · have hm : (l + r) / 2 < ts.length := by omega
      rw [List.getElem?_eq_getElem hm]
      dsimp only
      split
      · obtain ⟨x, h1, h2, h3⟩ := ih (r - ((l + r) / 2 + 1)) (by omega) ((l + r) / 2 + 1) r (by omega) hr rfl
        exact ⟨x, h1, by omega, h3⟩
      · obtain ⟨x, h1, h2, h3⟩ := ih ((l + r) / 2 - l) (by omega) l ((l + r) / 2) (by omega) (by omega) rfl
        exact ⟨x, h1, h2, by omega⟩
    · exact ⟨l, rfl, Nat.le_refl _, hl⟩

theorem cut_some (ts : List Int) (now : Int) : ∃ x, cut ts now = some x ∧ x ≤ ts.length := by
  unfold cut
  split
  · obtain ⟨x, h1, _, h3⟩ := cutLoop_some ts now 0 ts.length (Nat.zero_le _) (Nat.le_refl _)
    exact ⟨x, h1, h3⟩
  · exact ⟨0, rfl, Nat.zero_le _⟩

theorem closeAll_some {ch : Nat → Option Nat} {cw : Nat → Nat} (hcw : ∀ w c, ch w = some c → cw c = w) :
    ∀ (ws : List Nat) (cl : Nat → Bool), ws.Nodup → (∀ w ∈ ws, ch w ≠ none ∧ ∀ c, ch w = some c → cl c = false) →
    ∃ cl', closeAll ch ws cl = some cl' ∧ ∀ c, cl' c = true ↔ cl c = true ∨ ∃ w ∈ ws, ch w = some c := by
  intro ws
  induction ws with
  | nil => intro cl _ _; exact ⟨cl, rfl, fun c => by simp⟩
  | cons w ws ih =>
    intro cl hn h
    obtain ⟨h1, h2⟩ := h w (List.mem_cons_self ..)
    obtain ⟨c, hc⟩ := Option.ne_none_iff_exists'.1 h1
    rw [List.nodup_cons] at hn
    obtain ⟨cl', e1, e2⟩ := ih (fun x => if x = c then true else cl x) hn.2 (fun w' hw' => by
      obtain ⟨g1, g2⟩ := h w' (List.mem_cons_of_mem _ hw')
      refine ⟨g1, fun c' hc' => ?_⟩
      have : c' ≠ c := by
        rintro rfl
        have := hcw w c' hc
        have := hcw w' c' hc'
        have : w = w' := by omega
        exact hn.1 (this ▸ hw')
      simp [this, g2 c' hc'])
    refine ⟨cl', ?_, fun x => ?_⟩
    · simp only [closeAll, hc, h2 c hc, Bool.false_eq_true, if_false]; exact e1
    · rw [e2]
      simp only [List.mem_cons, exists_eq_or_imp, hc, Option.some.injEq]
      by_cases hx : x = c
      · subst hx; simp
      · simp [hx, Ne.symm hx]

end Verif.GoPool
