import Verif.PoolDrain.Extra
import Verif.PoolDrain.Lemmas
/-!
# What a stopped pool leaves behind
-/
namespace Verif.PoolDrain
open Verif.GoPool Verif.PoolFair

variable {mx : Int} {p : Nat} {σ : Nat → St} {k n w c : Nat}

/-- A channel that once has something for a goroutine at rest would be read. -/
theorem rest_dry (hm : 0 < mx) (e : Exec mx p σ) (hf : Fair σ) (hr : ∀ m, n ≤ m → (σ m).gor = (σ n).gor)
    (hk : (σ n).gor k = .recv w (some c)) {a : Nat} (ha : n ≤ a) : ¬ ((σ a).closed c = true ∨ ∃ j, (σ a).buf c = some j) := fun hd => by
  have keep : ∀ m, n ≤ m → (σ m).gor k = .recv w (some c) := fun m h => by rw [hr m h, hk]
  refine weakly (n := a) (f := fun s => s.gor k) (hf.workers k) (fun m h => by rw [keep m (by omega), keep a ha]) fun m h => ?_
  refine recv_ready (keep m (by omega)) ?_
  refine keeps e (P := fun s => s.closed c = true ∨ ∃ j, s.buf c = some j) (fun m h1 h2 st => ?_) hd m h
  obtain ⟨tok, cw, rdr, jc, i⟩ := inv_reach hm (e.reach m)
  rcases h2 with h2 | ⟨j, h2⟩
  · exact .inl (closed_step i st h2)
  · exact .inr ⟨j, buf_keep st (by rw [hr (m + 1) (by omega), hr m (by omega)]) h2⟩

/-- In a stopped pool no call of `Run` holds a worker for ever. -/
theorem no_send (hm : 0 < mx) (e : Exec mx p σ) (hf : Fair σ) (hx : ∀ m, n ≤ m → (σ m).maxWorkers = -1) (w : Nat) :
    ∃ a, n ≤ a ∧ ∀ m, a ≤ m → ∀ j, (σ m).job j ≠ .sending w := by
  have old : ∀ j b, n ≤ b → ∀ a, b ≤ a → (σ a).job j = .sending w → (σ b).job j = .sending w := fun j b hb a ha => by
    induction a, ha using Nat.le_induction with
    | base => exact id
    | succ a ha ih =>
      intro h
      refine ih ?_
      rcases e.next a with st | st
      · exact sending_old st (hx _ (by omega)) h
      · rw [← st]; exact h
  by_cases h : ∃ j, (σ n).job j = .sending w
  · obtain ⟨j, hj⟩ := h
    obtain ⟨a, ha, hja⟩ := C125_run_returns (j := j) hm e hf.runs (n := n) (by rw [hj]; simp)
    refine ⟨a, ha, fun m h1 j' h2 => ?_⟩
    have h4 := old j' a ha m h1 h2
    have h3 := old j' n (Nat.le_refl _) m (by omega) h2
    obtain ⟨tok, cw, rdr, jc, i⟩ := inv_reach hm (e.reach n)
    have g1 := (i.run j w).1 hj
    have g2 := (i.run j' w).1 h3
    rw [g1] at g2
    cases g2
    rw [h4] at hja
    rcases hja with h | h <;> cases h
  · exact ⟨n, Nat.le_refl _, fun m h1 j h2 => h ⟨j, old j n (Nat.le_refl _) m h1 h2⟩⟩

/-- So in the end the workers of the remaining goroutines are out of use. -/
theorem no_use (hm : 0 < mx) (e : Exec mx p σ) (hf : Fair σ) (hx : ∀ m, n ≤ m → (σ m).maxWorkers = -1)
    (hr : ∀ m, n ≤ m → (σ m).gor = (σ n).gor) (w : Nat) : ∃ a, n ≤ a ∧ ∀ m, a ≤ m → ¬ Used (σ m) w := by
  obtain ⟨a, ha, h⟩ := no_send hm e hf hx w
  refine ⟨a, ha, fun m h1 hu => ?_⟩
  obtain ⟨tok, cw, rdr, jc, i⟩ := inv_reach hm (e.reach m)
  have live : ∀ k, ((σ m).gor k).live = true → ∃ w o, (σ m).gor k = .recv w o := fun k hk => by
    rw [hr m (by omega)] at hk ⊢
    exact rest_recv hm e hf hx hr hk
  rcases hu with ⟨hd, ho⟩ | ⟨j, hj⟩ | ⟨c, j, hc, hb⟩ | ⟨k, c, hk⟩ | hg
  · obtain ⟨c, hc⟩ := Option.ne_none_iff_exists'.1 (i.idle w ((i.dobby1 w).1 hd)).1
    have := (ext_reach hm (e.reach m)).over (hx m (by omega)) w c hd hc
    rw [ho c hc] at this; cases this
  · exact h m h1 j hj
  · obtain ⟨j1, j2, j3⟩ := i.job1 c j hb
    obtain ⟨w', c', k, g1, g2, _, g3 | g3, _⟩ := accepted_queued i j1 j2
    · obtain ⟨w'', o, g⟩ := live k (by rw [g3]; rfl)
      rw [g3] at g; cases g
    · rw [hr m (by omega)] at g3
      exact rest_dry hm e hf hr g3 (a := m) (by omega) (.inr ⟨j, g2⟩)
  · obtain ⟨w', o, g⟩ := live k (by cases hh : (σ m).gor k <;> rw [hh] at hk <;> first | rfl | cases hk)
    rw [g] at hk; cases hk
  · rw [i.max1.1 (hx m (by omega))] at hg
    simp [GcPc.todo] at hg

theorem no_uses (hm : 0 < mx) (e : Exec mx p σ) (hf : Fair σ) (hx : ∀ m, n ≤ m → (σ m).maxWorkers = -1)
    (hr : ∀ m, n ≤ m → (σ m).gor = (σ n).gor) (B : Nat) : ∃ a, n ≤ a ∧ ∀ m, a ≤ m → ∀ w, w < B → ¬ Used (σ m) w := by
  induction B with
  | zero => exact ⟨n, Nat.le_refl _, fun _ _ w h => absurd h (by omega)⟩
  | succ B ih =>
    obtain ⟨a, h1, h2⟩ := ih
    obtain ⟨b, h3, h4⟩ := no_use hm e hf hx hr B
    refine ⟨max a b, by omega, fun m hm w hw => ?_⟩
    rcases Nat.lt_succ_iff_lt_or_eq.1 hw with h | h
    · exact h2 m (by omega) w h
    · subst h; exact h4 m (by omega)

/-- The worker of a goroutine. -/
def wof : GorPc → Nat
  | .recv w _ => w
  | _ => 0

/-- At most as many goroutines remain as were preheated. -/
theorem rest_few (hm : 0 < mx) (e : Exec mx p σ) (hf : Fair σ) (hx : ∀ m, n ≤ m → (σ m).maxWorkers = -1)
    (hr : ∀ m, n ≤ m → (σ m).gor = (σ n).gor) : ∃ a, n ≤ a ∧ ∀ m, a ≤ m → (σ m).workers ≤ p := by
  classical
  obtain ⟨l, cn⟩ := cnt_reach hm (e.reach n)
  obtain ⟨B, hB⟩ : ∃ B, ∀ k ∈ l, wof ((σ n).gor k) < B := by
    clear cn
    induction l with
    | nil => exact ⟨0, by simp⟩
    | cons k l ih =>
      obtain ⟨B, hB⟩ := ih
      refine ⟨max B (wof ((σ n).gor k) + 1), fun k' hk' => ?_⟩
      rcases List.mem_cons.1 hk' with rfl | hk'
      · omega
      · have := hB k' hk'; omega
  obtain ⟨a, ha, hu⟩ := no_uses hm e hf hx hr B
  refine ⟨a, ha, fun m h1 => ?_⟩
  obtain ⟨l', c'⟩ := cnt_reach hm (e.reach m)
  obtain ⟨tok, cw, rdr, jc, i⟩ := inv_reach hm (e.reach m)
  have ex := ext_reach hm (e.reach m)
  have mem : ∀ k ∈ l', k ∈ l := fun k hk => by
    rw [cn.mem, ← hr m (by omega), ← c'.mem]; exact hk
  -- every one of them is the only one of a preheated worker
  have key : ∀ k ∈ l', att (σ m) (wof ((σ m).gor k)) k ∧ k ∈ (Finset.range (σ m).nextG).filter (att (σ m) (wof ((σ m).gor k))) ∧
      num (σ m) (wof ((σ m).gor k)) ≤ if wof ((σ m).gor k) < p then 1 else 0 := fun k hk => by
    have hl := (c'.mem k).1 hk
    have hB' := hB k (mem k hk)
    obtain ⟨w, o, g⟩ : ∃ w o, (σ n).gor k = .recv w o := rest_recv hm e hf hx hr (by rw [← hr m (by omega)]; exact hl)
    have g' : (σ m).gor k = .recv w o := by rw [hr m (by omega), g]
    have at1 : att (σ m) w k := by
      cases o with
      | none => simp [att, g']
      | some c =>
        have := rest_dry hm e hf hr g (a := m) (by omega)
        simp only [att, g', true_and]
        by_contra hh
        exact this (.inl (by simpa using hh))
    have hlt : k < (σ m).nextG := by
      by_contra hge
      rw [i.gfresh k (by omega)] at g'; cases g'
    rw [g] at hB'
    rw [g']
    refine ⟨at1, Finset.mem_filter.2 ⟨Finset.mem_range.2 hlt, at1⟩, ?_⟩
    have := ex.most w
    rw [if_neg (hu m h1 w hB')] at this
    by_cases hw : w < p <;> simp only [wof, hw, if_true, if_false] at this ⊢ <;> omega
  have small : ∀ k ∈ l', wof ((σ m).gor k) < p := fun k hk => by
    obtain ⟨h1, h2, h3⟩ := key k hk
    by_contra hh
    rw [if_neg hh] at h3
    have := Finset.card_pos.2 ⟨k, h2⟩
    unfold num at h3
    omega
  have inj : ∀ k ∈ l', ∀ k' ∈ l', wof ((σ m).gor k) = wof ((σ m).gor k') → k = k' := fun k hk k' hk' he => by
    obtain ⟨h1, h2, h3⟩ := key k hk
    obtain ⟨h1', h2', h3'⟩ := key k' hk'
    rw [← he] at h2'
    rw [if_pos (small k hk)] at h3
    exact Finset.card_le_one.1 h3 k h2 k' h2'
  have : l'.toFinset.card ≤ (Finset.range p).card :=
    Finset.card_le_card_of_injOn (fun k => wof ((σ m).gor k)) (fun k hk => by simpa using small k (by simpa using hk))
      (fun k hk k' hk' he => inj k (by simpa using hk) k' (by simpa using hk') he)
  rw [List.toFinset_card_of_nodup c'.nodup, Finset.card_range] at this
  rw [c'.len]
  omega

end Verif.PoolDrain
