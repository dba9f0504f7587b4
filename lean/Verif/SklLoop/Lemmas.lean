import Verif.SklLoop.Spec
import Verif.SklShare.Lemmas
import Verif.SklWeak.Props
/-!
# The loop, call by call
-/
set_option linter.unusedSectionVars false
namespace Verif.SklLoop
open Verif.Go Verif.Conc Verif.Conc.RW Verif.Skl Verif.MapSpec Verif.SklShare Verif.SklWeak Relation

variable {K V Q : Type} [GoOrdered K] [LawfulOrdered K] [DecidableEq K] [Inhabited K] [Inhabited V] {seed : BitVec 64}
  {q : Client Q (Call K V) (Res K V)}

theorem readsOnly : ReadsOnly (object K V seed) := by
  intro w c a r w' hw hf
  match c, r, hf with
  | .inl c, .inl r, hf => exact SklShare.readsOnly w c a r w' hw hf
  | .inr it, .inr o, hf => exact hf.2

theorem iter_inl {w : Mem K V seed} {c : Call K V} {a b : Loc K V} (h : ReflTransGen ((object K V seed).iter w (.inl c)) a b) :
    ReflTransGen ((shared K V seed).iter w c) a b := h

theorem iter_inr {w : Mem K V seed} {it : Iter} {a b : Loc K V} (h : ReflTransGen ((object K V seed).iter w (.inr it)) a b) : b = a := by
  induction h with
  | refl => rfl
  | tail _ h _ => exact h.elim

theorem live : Live (object K V seed) := by
  intro w c acc h
  match c with
  | .inl c =>
    rcases SklShare.live w c acc (iter_inl h) with h1 | ⟨r, w', h1⟩
    · exact .inl h1
    · exact .inr ⟨.inl r, w', h1⟩
  | .inr it => exact .inr ⟨.inr (Skl.next w.1 it), w, rfl, rfl⟩

/-- How many rounds are left. -/
noncomputable def bound' (w : Mem K V seed) (c : Call' K V) (a : Loc K V) : Nat :=
  match c with
  | .inl c => bound w c a
  | .inr _ => 0

theorem shrinks : ShrinksFrom (object K V seed) bound' := by
  intro w c acc acc' h st
  match c with
  | .inl c => exact SklShare.shrinks w c acc acc' (iter_inl h) st
  | .inr it => exact st.elim

/-- What a call does to the map. -/
theorem astep_op {t : Nat} {a b : Mem K V seed × (Nat → Loop K V ⊕ Q)} (st : AStep (seqObj (object K V seed)) (withLoop q) t a b) :
    (opOf ((withLoop q).call (a.2 t)) = [] ∧ b.1 = a.1) ∨ ∃ o, opOf ((withLoop q).call (a.2 t)) = [o] ∧ Skl.step a.1.1 o = .ret b.1.1 := by
  cases st with
  | @mk m l c r m' hc hst =>
    obtain ⟨acc, _, hf⟩ := hst
    simp only [hc]
    match c, r, hf with
    | .inr it, .inr o, hf => exact .inl ⟨rfl, hf.2⟩
    | .inl c, .inl r, hf =>
      have hf' : Finish m c acc r m' := hf
      cases hf' with
      | @set k v _ e => exact .inr ⟨_, rfl, e⟩
      | @del k b _ e => exact .inr ⟨_, rfl, by simp only [Skl.step, e, Outcome.map_ret]⟩
      | @clear s _ e => exact .inr ⟨_, rfl, by simp only [Skl.step, e]⟩
      | get _ => exact .inl ⟨rfl, rfl⟩
      | seek _ => exact .inl ⟨rfl, rfl⟩
      | len => exact .inl ⟨rfl, rfl⟩
      | keys _ => exact .inl ⟨rfl, rfl⟩
      | values _ => exact .inl ⟨rfl, rfl⟩
      | all _ => exact .inl ⟨rfl, rfl⟩

theorem calls_run {a b : Mem K V seed × (Nat → Loop K V ⊕ Q)} {h ops : List (Op K V)} (ha : run (Skl.new seed) h = .ret a.1.1) (hc : Calls q a ops b) :
    run (Skl.new seed) (h ++ ops) = .ret b.1.1 := by
  induction hc with
  | none => simpa using ha
  | more _ st ih =>
    rcases astep_op st with ⟨e, hw⟩ | ⟨o, e, hw⟩
    · rw [e, hw]; simpa using ih
    · rw [e, ← List.append_assoc]; exact run_snoc ih hw

theorem calls_of_path {a b : Mem K V seed × (Nat → Loop K V ⊕ Q)}
    (h : ReflTransGen (fun a b => ∃ t, AStep (seqObj (object K V seed)) (withLoop q) t a b) a b) : ∃ ops, Calls q a ops b := by
  induction h with
  | refl => exact ⟨_, .none⟩
  | tail _ st ih => obtain ⟨ops, h⟩ := ih; obtain ⟨t, st⟩ := st; exact ⟨_, h.more st⟩

/-- A new iterator on any map. -/
theorem reach_start : ∀ {h : List (Op K V)} {w : World K V}, run (Skl.new seed) h = .ret w → Reach seed h w .start iterator := by
  intro h
  induction h using List.reverseRecOn with
  | nil => intro w e; cases e; exact .init
  | append_singleton h o ih =>
    intro w e
    rw [run_append] at e
    cases e1 : run (Skl.new seed) h with
    | panic => rw [e1] at e; cases e
    | hang => rw [e1] at e; cases e
    | ret w1 =>
      rw [e1] at e
      have r := ih e1
      have e2 : (Skl.step w1 o).bind (fun w' => .ret w') = .ret w := e
      have e3 : Skl.step w1 o = .ret w := by
        cases h3 : Skl.step w1 o with
        | ret w' => rw [h3] at e2; exact e2
        | panic => rw [h3] at e2; cases e2
        | hang => rw [h3] at e2; cases e2
      cases o with
      | set k v => exact r.set e3
      | del k =>
        simp only [Skl.step] at e3
        cases hd : Skl.del w1 k with
        | ret x =>
          obtain ⟨w2, b⟩ := x
          rw [hd] at e3
          simp at e3
          subst e3
          exact r.del (by simp) hd
        | panic => rw [hd] at e3; cases e3
        | hang => rw [hd] at e3; cases e3
      | clear s => cases e3; exact r.clear

/-- What a goroutine was given, without the moments. -/
abbrev kv (g : Given K V) : K × V := (g.key, g.val)

/-- The loop of goroutine `t`, since it was about to begin with the map after `h1`. -/
def Since (seed : BitVec 64) (h1 ops : List (Op K V)) (t : Nat) (b : Mem K V seed × (Nat → Loop K V ⊕ Q)) : Prop :=
  (∃ it out, b.2 t = .inl (.go it (out.map kv)) ∧ Iterated seed h1 .start ops b.1.1 it out) ∨
  ∃ pre w it it' out, pre <+: ops ∧ b.2 t = .inl (.done (out.map kv)) ∧ Iterated seed h1 .start pre w it out ∧ Skl.next w it = .ret (it', none)

theorem noClear_op {l : Loop K V ⊕ Q} (hq : NoClear q) {o : Op K V} (h : opOf ((withLoop q).call l) = [o]) (s : BitVec 64) : o ≠ .clear s := by
  rintro rfl
  match l with
  | .inl (.go _ _) => cases h
  | .inl (.done _) => cases h
  | .inl .crash => cases h
  | .inr x =>
    have h' : opOf ((q.call x).map Sum.inl) = [Op.clear s] := h
    cases hc : q.call x with
    | none => rw [hc] at h'; cases h'
    | some c =>
      rw [hc] at h'
      cases c <;> simp [opOf] at h'
      subst h'
      exact hq x _ hc

theorem since_step (hq : NoClear q) {h1 ops : List (Op K V)} {t u : Nat} {a b : Mem K V seed × (Nat → Loop K V ⊕ Q)} (h : Since seed h1 ops t a)
    (st : AStep (seqObj (object K V seed)) (withLoop q) u a b) : Since seed h1 (ops ++ opOf ((withLoop q).call (a.2 u))) t b := by
  have hop := astep_op st
  by_cases e : t = u
  · subst e
    rcases h with ⟨it, out, hl, hi⟩ | ⟨pre, w, it, it', out, hp, hl, hi, hn⟩
    · cases st with
      | @mk m l c r m' hc hst =>
        obtain ⟨acc, _, hf⟩ := hst
        simp only at hl hi
        rw [hl] at hc
        cases hc
        simp only [hl]
        have ho : ops ++ opOf ((withLoop q).call (.inl (.go it (out.map kv)))) = ops := List.append_nil _
        rw [ho]
        match r, hf with
        | .inr o, hf =>
          obtain ⟨rfl, rfl⟩ := hf
          obtain ⟨⟨it', res, hn⟩, -⟩ := C163_returns hi
          cases res with
          | none => exact .inr ⟨ops, _, it, it', out, List.prefix_rfl, by simp only [setLoc_same]; rw [hn]; rfl, hi, hn⟩
          | some e =>
            obtain ⟨k, v⟩ := e
            refine .inl ⟨it', out ++ [⟨ops, k, v⟩], ?_, hi.next hn⟩
            simp only [setLoc_same]; rw [hn, List.map_append]; rfl
    · cases st with
      | mk hc _ => simp only at hl; rw [hl] at hc; cases hc
  · have hl' : b.2 t = a.2 t := by
      cases st with
      | mk _ _ => exact setLoc_ne _ _ e
    rcases h with ⟨it, out, hl, hi⟩ | ⟨pre, w, it, it', out, hp, hl, hi, hn⟩
    · refine .inl ⟨it, out, hl'.trans hl, ?_⟩
      rcases hop with ⟨e0, hw⟩ | ⟨o, e0, hw⟩
      · rw [e0, hw]; simpa using hi
      · rw [e0]; exact hi.op (noClear_op hq e0) hw
    · exact .inr ⟨pre, w, it, it', out, hp.trans (List.prefix_append _ _), hl'.trans hl, hi, hn⟩

theorem since_calls (hq : NoClear q) {h1 : List (Op K V)} {t : Nat} {a : Mem K V seed × (Nat → Loop K V ⊕ Q)} (hr : run (Skl.new seed) h1 = .ret a.1.1)
    (hl : a.2 t = .inl (.go iterator [])) {ops : List (Op K V)} {b : Mem K V seed × (Nat → Loop K V ⊕ Q)} (hc : Calls q a ops b) :
    Since seed h1 ops t b := by
  induction hc with
  | none => exact .inl ⟨iterator, [], hl, .start (reach_start hr) (by simp)⟩
  | more _ st ih => exact since_step hq ih st

/-- A goroutine whose program is over is outside the map. -/
theorem idle_of_done {l : Nat → Loop K V ⊕ Q} {s : CSt (Mem K V seed) (Loc K V) (Call' K V) (Res' K V) (Loop K V ⊕ Q)}
    (h : CReach (object K V seed) (withLoop q) l s) {t : Nat} (hc : (withLoop q).call (s.loc t) = none) : s.obj.pc t = .idle := by
  cases e : s.obj.pc t with
  | idle => rfl
  | want _ c => have := h.calls (t := t) (c := c) (by rw [e]; rfl); rw [hc] at this; cases this
  | body _ c _ => have := h.calls (t := t) (c := c) (by rw [e]; rfl); rw [hc] at this; cases this
  | held _ c _ => have := h.calls (t := t) (c := c) (by rw [e]; rfl); rw [hc] at this; cases this
  | out _ c _ => have := h.calls (t := t) (c := c) (by rw [e]; rfl); rw [hc] at this; cases this

theorem calls_areach {l : Nat → Loop K V ⊕ Q} {x : Mem K V seed × (Nat → Loop K V ⊕ Q)} (h : AReach (seqObj (object K V seed)) (withLoop q) l x) :
    ∃ hist, Calls q (⟨Skl.new seed, [], rfl⟩, l) hist x := by
  induction h with
  | start => exact ⟨[], .none⟩
  | step _ st ih => obtain ⟨hist, h⟩ := ih; exact ⟨_, h.more st⟩

/-- What is untouched is as it was. -/
theorem untouched_lookup {k : K} {h : List (Op K V)} : ∀ {ops : List (Op K V)}, Untouched k ops → lookup (h ++ ops) k = lookup h k := by
  intro ops
  induction ops using List.reverseRecOn with
  | nil => intro _; rw [List.append_nil]
  | append_singleton ops o ih =>
    intro hu
    have hu' : Untouched k ops := ⟨fun v hv => hu.1 v (by simp [hv]), fun hd => hu.2.1 (by simp [hd]), fun s hs => hu.2.2 s (by simp [hs])⟩
    rw [← List.append_assoc]
    cases o with
    | set k' v =>
      rw [lookup_set, if_neg (fun e => hu.1 v (by simp [e])), ih hu']
    | del k' => rw [lookup_del, if_neg (fun e => hu.2.1 (by simp [e])), ih hu']
    | clear s => exact absurd (by simp) (hu.2.2 s)

theorem Untouched.prefix {k : K} {a b : List (Op K V)} (h : Untouched k b) (hp : a <+: b) : Untouched k a :=
  ⟨fun v hv => h.1 v (hp.subset hv), fun hd => h.2.1 (hp.subset hd), fun s hs => h.2.2 s (hp.subset hs)⟩

/-! ## An end -/

/-- Sum over the first goroutines. -/
def sum {P : Type} (f : P → Nat) (l : Nat → P) : Nat → Nat
  | 0 => 0
  | n + 1 => sum f l n + f (l n)

theorem sum_setLoc {P : Type} (f : P → Nat) (l : Nat → P) {t : Nat} (x : P) : ∀ {N}, t < N → sum f (setLoc l t x) N + f (l t) = sum f l N + f x
  | N + 1, ht => by
    simp only [sum]
    have hout : ∀ M, M ≤ t → sum f (setLoc l t x) M = sum f l M := by
      intro M
      induction M with
      | zero => intro _; rfl
      | succ M ih => intro hM; simp only [sum]; rw [ih (by omega), setLoc_ne _ _ (show M ≠ t by omega)]
    by_cases e : t = N
    · subst e; rw [hout t (Nat.le_refl _), setLoc_same]; omega
    · rw [setLoc_ne _ _ (fun e' => e e'.symm)]
      have := sum_setLoc f l (t := t) x (N := N) (by omega)
      omega

theorem sum_le {P : Type} {f g : P → Nat} (h : ∀ x, f x ≤ g x + 1) (l : Nat → P) : ∀ N, sum f l N ≤ sum g l N + N
  | 0 => Nat.le_refl _
  | N + 1 => by have := sum_le h l N; have := h (l N); simp only [sum]; omega

/-- What is left to do of a goroutine when `D` keys have been set. -/
def cost (μ : Q → Nat) (N D : Nat) : Loop K V ⊕ Q → Nat
  | .inl (.go _ out) => D + 1 - out.length
  | .inl _ => 0
  | .inr x => μ x * (N + 1)

theorem setKeys_append (a b : List (Op K V)) : setKeys (a ++ b) = setKeys a ++ setKeys b := by
  induction a with
  | nil => rfl
  | cons o a ih => cases o <;> simp [setKeys, ih]

theorem given_le (hq : NoClear q) {l : Nat → Loop K V ⊕ Q} (hl : Fresh l) {hist : List (Op K V)} {x : Mem K V seed × (Nat → Loop K V ⊕ Q)}
    (hc : Calls q (⟨Skl.new seed, [], rfl⟩, l) hist x) {t : Nat} {it : Iter} {out : List (K × V)} (ht : x.2 t = .inl (.go it out)) :
    out.length ≤ (setKeys hist).length := by
  have h0 : ∃ y, l t = .inl y := by
    by_contra hn
    have key : ∀ {ops b}, Calls q (⟨Skl.new seed, [], rfl⟩, l) ops b → ∃ z, b.2 t = .inr z := by
      intro ops b hb
      induction hb with
      | none => match hlt : l t with
        | .inl y => exact absurd ⟨y, hlt⟩ hn
        | .inr z => exact ⟨z, hlt⟩
      | @more ops b c u _ st ih =>
        obtain ⟨z, hz⟩ := ih
        cases st with
        | @mk m l c r m' hc hst =>
          by_cases e : t = u
          · subst e
            simp only at hz
            simp only [setLoc_same, hz]
            rw [hz] at hc
            match r with
            | .inl r => exact ⟨_, rfl⟩
            | .inr r => exact ⟨z, rfl⟩
          · simp only [setLoc_ne _ _ e]; exact ⟨z, hz⟩
    obtain ⟨z, hz⟩ := key hc
    rw [hz] at ht; cases ht
  obtain ⟨y, hy⟩ := h0
  have hy' := hl t y hy
  subst hy'
  rcases since_calls hq (h1 := []) rfl hy hc with ⟨it', out', e, hi⟩ | ⟨_, _, _, _, out', _, e, _, _⟩
  · rw [e] at ht
    cases ht
    have := C163_ends hi (ks := []) ⟨List.nodup_nil, by simp [lookup]⟩
    simpa using this
  · rw [e] at ht; cases ht

theorem acc_astep (hq : NoClear q) {μ : Q → Nat} (hμ : ∀ x c r, q.call x = some c → μ (q.resume x r) < μ x) {l : Nat → Loop K V ⊕ Q} (hl : Fresh l)
    {N : Nat} (hN : ∀ t, N ≤ t → (withLoop q).call (l t) = none) : ∀ (n : Nat) (hist : List (Op K V)) (x : Mem K V seed × (Nat → Loop K V ⊕ Q)),
    Calls q (⟨Skl.new seed, [], rfl⟩, l) hist x → sum (cost μ N (setKeys hist).length) x.2 N < n →
    Acc (fun b a => ∃ t, AStep (seqObj (object K V seed)) (withLoop q) t a b) x := by
  have hout : ∀ {hist : List (Op K V)} {x : Mem K V seed × (Nat → Loop K V ⊕ Q)}, Calls q (⟨Skl.new seed, [], rfl⟩, l) hist x →
      ∀ t, N ≤ t → (withLoop q).call (x.2 t) = none := by
    intro hist x hc
    induction hc with
    | none => exact hN
    | @more ops b c u _ st ih =>
      intro t ht
      cases st with
      | @mk m l c r m' hc hst =>
        by_cases e : t = u
        · subst e; rw [ih t ht] at hc; cases hc
        · simp only [setLoc_ne _ _ e]; exact ih t ht
  intro n
  induction n with
  | zero => intro _ _ _ h; omega
  | succ n ih =>
    intro hist x hc hlt
    refine ⟨_, fun b ⟨t, st⟩ => ih _ b (hc.more st) ?_⟩
    have hc' := hc.more st
    have ht : t < N := by
      by_contra hcon
      have h0 := hout hc t (by omega)
      cases st with
      | mk hcc _ => rw [h0] at hcc; cases hcc
    cases st with
    | @mk m lo c r m' hcall hst =>
      simp only at hlt hc' ⊢
      match hq0 : lo t with
      | .inl (.done o) => rw [hq0] at hcall; cases hcall
      | .inl .crash => rw [hq0] at hcall; cases hcall
      | .inl (.go it out) =>
        rw [hq0] at hcall
        cases hcall
        have hop : opOf ((withLoop q).call (.inl (.go it out) : Loop K V ⊕ Q)) = [] := rfl
        rw [hop, List.append_nil]
        have hle := given_le hq hl hc (t := t) hq0
        rw [hq0, hop, List.append_nil] at hc'
        obtain ⟨acc, _, hf⟩ := hst
        have hdec : cost μ N (setKeys hist).length ((withLoop q).resume (.inl (.go it out)) r) < cost μ N (setKeys hist).length (.inl (.go it out) : Loop K V ⊕ Q) := by
          match r, hf with
          | .inr .panic, _ => simp only [withLoop, cost]; omega
          | .inr .hang, _ => simp only [withLoop, cost]; omega
          | .inr (.ret (it', none)), _ => simp only [withLoop, cost]; omega
          | .inr (.ret (it', some e)), _ =>
            simp only [withLoop, cost, List.length_append, List.length_singleton]; omega
        have := sum_setLoc (cost μ N (setKeys hist).length) lo ((withLoop q).resume (.inl (.go it out)) r) ht
        rw [hq0] at this
        omega
      | .inr z =>
        rw [hq0] at hcall
        obtain ⟨acc, _, hf⟩ := hst
        have hz : ∃ c', q.call z = some c' ∧ c = .inl c' := by
          have h' : (q.call z).map Sum.inl = some c := hcall
          cases hcz : q.call z with
          | none => rw [hcz] at h'; cases h'
          | some c' => rw [hcz] at h'; exact ⟨c', rfl, by simpa using h'.symm⟩
        obtain ⟨c', hz, rfl⟩ := hz
        match r, hf with
        | .inl r, hf =>
          have hd : (setKeys (hist ++ opOf ((withLoop q).call (.inr z : Loop K V ⊕ Q)))).length ≤ (setKeys hist).length + 1 := by
            rw [setKeys_append, hcall]
            cases c' <;> simp [opOf, setKeys]
          generalize (setKeys (hist ++ opOf ((withLoop q).call (.inr z : Loop K V ⊕ Q)))).length = D' at hd ⊢
          generalize (setKeys hist).length = D at hd hlt
          have h1 := sum_le (f := cost (K := K) (V := V) μ N D') (g := cost μ N D) (fun y => by
            match y with
            | .inl (.go _ out) => simp only [cost]; omega
            | .inl (.done _) => simp [cost]
            | .inl .crash => simp [cost]
            | .inr _ => simp [cost]) (setLoc lo t ((withLoop q).resume (.inr z) (.inl r))) N
          have h2 := sum_setLoc (cost μ N D) lo ((withLoop q).resume (.inr z) (.inl r)) ht
          have h3 : cost (K := K) (V := V) μ N D ((withLoop q).resume (.inr z) (.inl r)) + (N + 1) ≤ cost μ N D (.inr z : Loop K V ⊕ Q) := by
            show μ (q.resume z r) * (N + 1) + (N + 1) ≤ μ z * (N + 1)
            have := hμ z c' r hz
            calc μ (q.resume z r) * (N + 1) + (N + 1) = (μ (q.resume z r) + 1) * (N + 1) := by rw [Nat.add_mul, Nat.one_mul]
              _ ≤ μ z * (N + 1) := Nat.mul_le_mul_right _ this
          rw [hq0] at h2
          omega

end Verif.SklLoop
