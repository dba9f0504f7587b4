import Verif.DecMulti.Model
import Verif.Decouple.Props
/-!
# Lemmas: readers that take turns are one reader
-/
namespace Verif.DecMulti
open Verif.Decouple

variable {α : Type} {size : Nat} {payload : Nat → List α}

theorem SReach.reach {m : MSt α} (h : SReach size payload m) : MReach size payload m := by
  induction h with
  | init => exact .init
  | step _ st _ ih => exact ih.step st

/-- The state of the decoupler as its only reader sees it. -/
def one (size : Nat) (s : St α) : NPc → St α
  | .idle => s
  | .got => { s with rpc := .spin (slot size s.rd) }
  | .spin i => { s with rpc := .spin i }
  | .view i => { s with rpc := .view i }
  | .clear i => { s with rpc := .clear i }
  | .decr => { s with rpc := .decr }
  | .load => { s with rd := (s.rd + 1) % W }
  | .store r => { s with rd := (r + 1) % W }

/-- A step of `Write` does not care for the reader. -/
theorem write_any {s s' : St α} (h : Step size payload s s') (hi : s.rpc = .idle) (hi' : s'.rpc = .idle) (hs : size ≠ 0) :
    s'.rd = s.rd ∧ ∀ q d, { s' with rpc := q, rd := d } = ({ s with rpc := q, rd := d } : St α) ∨
      Step size payload { s with rpc := q, rd := d } { s' with rpc := q, rd := d } := by
  cases h with
  | callEmpty j h h1 => exact ⟨rfl, fun q d => .inr (.callEmpty _ j h h1)⟩
  | call j h h1 => exact ⟨rfl, fun q d => .inr (.call _ j h h1)⟩
  | add j h h1 => exact ⟨rfl, fun q d => .inr (.add _ j h h1)⟩
  | addCrash j h h1 => exact absurd h1 hs
  | loadEmpty j ts h h1 => exact ⟨rfl, fun q d => .inr (.loadEmpty _ j ts h h1)⟩
  | loadBusy j ts h h1 => exact ⟨rfl, fun q d => .inr (.loadBusy _ j ts h h1)⟩
  | loadFull j ts h h1 h2 => exact ⟨rfl, fun q d => .inr (.loadFull _ j ts h h1 h2)⟩
  | casOk j ts h h1 => exact ⟨rfl, fun q d => .inr (.casOk _ j ts h h1)⟩
  | casFail j ts h h1 => exact ⟨rfl, fun q d => .inr (.casFail _ j ts h h1)⟩
  | copy j ts h => exact ⟨rfl, fun q d => .inr (.copy _ j ts h)⟩
  | store j ts h => exact ⟨rfl, fun q d => .inr (.store _ j ts h)⟩
  | incr j h => exact ⟨rfl, fun q d => .inr (.incr _ j h)⟩
  | chkFull j h h1 => exact ⟨rfl, fun q d => .inr (.chkFull _ j h h1)⟩
  | chkRetry j h h1 => exact ⟨rfl, fun q d => .inr (.chkRetry _ j h h1)⟩
  | nextNone h h1 => exact ⟨rfl, fun q d => .inl rfl⟩
  | nextCrash h h1 h2 => exact absurd h2 hs
  | next h h1 h2 => cases hi'
  | spinWait i h h1 => rw [hi] at h; cases h
  | spinEnd i h h1 h2 => rw [hi] at h; cases h
  | view i h => rw [hi] at h; cases h
  | clear i h => rw [hi] at h; cases h
  | decr h => rw [hi] at h; cases h

theorem write_one {s s' : St α} (h : Step size payload s s') (hi : s.rpc = .idle) (hi' : s'.rpc = .idle) (hs : size ≠ 0)
    (q : NPc) : one size s' q = one size s q ∨ Step size payload (one size s q) (one size s' q) := by
  obtain ⟨hr, hw⟩ := write_any h hi hi' hs
  have key : ∀ (q : RPc) (d d' : Nat), d' = d → { s' with rpc := q, rd := d' } = ({ s with rpc := q, rd := d } : St α) ∨
      Step size payload { s with rpc := q, rd := d } { s' with rpc := q, rd := d' } := by
    rintro q d _ rfl; exact hw q _
  cases q with
  | idle => exact .inr h
  | got =>
    have e : slot size s'.rd = slot size s.rd := by rw [hr]
    rw [one, one, e]
    exact key _ _ _ hr
  | spin i => exact key _ _ _ hr
  | view i => exact key _ _ _ hr
  | clear i => exact key _ _ _ hr
  | decr => exact key _ _ _ hr
  | load =>
    have := key .idle ((s.rd + 1) % W) ((s'.rd + 1) % W) (by rw [hr])
    simpa only [one, ← hi, hi'.trans hi.symm] using this
  | store r =>
    have := key .idle ((r + 1) % W) _ rfl
    simpa only [one, ← hi, hi'.trans hi.symm] using this

/-- What the readers amount to. -/
structure Sim (size : Nat) (payload : Nat → List α) (m : MSt α) (a : Nat) : Prop where
  others : ∀ b, b ≠ a → m.rpc b = .idle
  unused : m.st.rpc = .idle
  reach : Reach size payload (one size m.st (m.rpc a))

theorem sim_step (hs : size ≠ 0) {m m' : MSt α} {a : Nat} (h : Sim size payload m a) (st : MStep size payload m m') (al : Alone m') :
    ∃ a', Sim size payload m' a' := by
  obtain ⟨h1, h2, h3⟩ := h
  have act : ∀ b, m.rpc b ≠ .idle → b = a := fun b hb => by
    by_contra hne; exact hb (h1 b hne)
  have upd : ∀ (s' : St α) (q : NPc), s'.rpc = .idle → Reach size payload (one size s' q) →
      Sim size payload ({ m with st := s' }.at a q) a := fun s' q e r => by
    refine ⟨fun b hb => ?_, e, ?_⟩
    · simp only [MSt.at, hb, if_false]; exact h1 b hb
    · simpa [MSt.at] using r
  cases st with
  | write st' hst hi =>
    refine ⟨a, h1, hi, ?_⟩
    rcases write_one hst h2 hi hs (m.rpc a) with e | e
    · rw [e]; exact h3
    · exact h3.step e
  | none b hb hl => exact ⟨a, h1, h2, h3⟩
  | some b hb hl =>
    have ha : m.rpc a = .idle := by
      by_cases e : a = b
      · rw [e]; exact hb
      · by_contra hne
        exact e (al a b (by simpa [MSt.at, e] using hne) (by simp [MSt.at]))
    have all : ∀ c, m.rpc c = .idle := fun c => by
      by_cases e : c = a
      · rw [e]; exact ha
      · exact h1 c e
    refine ⟨b, fun c hc => by simp only [MSt.at, hc, if_false]; exact all c, h2, ?_⟩
    rw [ha] at h3
    simp only [MSt.at, if_true, one]
    exact h3.step (.next _ h2 hl hs)
  | div b hb h0 => exact absurd h0 hs
  | read b hb h0 =>
    obtain rfl := act b (by rw [hb]; simp)
    rw [hb] at h3
    exact ⟨b, upd m.st _ h2 h3⟩
  | wait b i hb hl => exact ⟨a, h1, h2, h3⟩
  | found b i hb hl hl' =>
    obtain rfl := act b (by rw [hb]; simp)
    rw [hb] at h3
    exact ⟨b, upd m.st _ h2 (h3.step (.spinEnd _ i rfl hl hl'))⟩
  | view b i hb =>
    obtain rfl := act b (by rw [hb]; simp)
    rw [hb] at h3
    exact ⟨b, upd _ _ h2 (h3.step (.view _ i rfl))⟩
  | clear b i hb =>
    obtain rfl := act b (by rw [hb]; simp)
    rw [hb] at h3
    exact ⟨b, upd _ _ h2 (h3.step (.clear _ i rfl))⟩
  | decr b hb =>
    obtain rfl := act b (by rw [hb]; simp)
    rw [hb] at h3
    refine ⟨b, upd _ _ h2 ?_⟩
    have := h3.step (.decr _ rfl)
    simpa only [one, h2] using this
  | load b hb =>
    obtain rfl := act b (by rw [hb]; simp)
    rw [hb] at h3
    exact ⟨b, upd m.st _ h2 h3⟩
  | store b r hb =>
    obtain rfl := act b (by rw [hb]; simp)
    rw [hb] at h3
    exact ⟨b, upd _ _ h2 h3⟩

theorem SReach.sim (hs : size ≠ 0) {m : MSt α} (h : SReach size payload m) : ∃ a, Sim size payload m a := by
  induction h with
  | init => exact ⟨0, fun _ _ => rfl, rfl, .init⟩
  | step _ st al ih =>
    obtain ⟨a, h⟩ := ih
    exact sim_step hs h st al

end Verif.DecMulti
