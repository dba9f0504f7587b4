import Verif.BitShare.Spec
import Verif.Conc.Prod
/-!
# The word of a shared bit set, seen by one goroutine
-/
namespace Verif.BitShare
open Verif.BitSet Verif.Go

variable {w : Nat}

@[simp] theorem upd_same {β : Type} (f : Nat → β) (i : Nat) (b : β) : upd f i b i = b := if_pos rfl
theorem upd_ne {β : Type} (f : Nat → β) {i k : Nat} (b : β) (h : k ≠ i) : upd f i b k = f k := if_neg h

/-! ## The rest of a call -/

/-- The rest of a call. -/
def cont (op : Op) (d : BitVec w) (t : Bool) (is : List Int) : BitVec w × Res :=
  match op with
  | .set => ((set d is).1, unitRes (set d is).2)
  | .clear => ((clear d is).1, unitRes (clear d is).2)
  | .toggle => ((toggle d is).1, unitRes (toggle d is).2)
  | .test => (d, boolRes (testLoop d t is))

theorem doCall_cont (d : BitVec w) (c : Call) : doCall d c = cont c.op d false c.is := by
  unfold doCall cont
  cases c.op <;> rfl

theorem bit_ret {i : Int} (h : 0 ≤ i) : bit w i = .ret (1#w <<< i.toNat) := if_neg (by omega)
theorem bit_neg {i : Int} (h : i < 0) : bit w i = .panic := if_pos h

theorem cont_nil (op : Op) (d : BitVec w) (t : Bool) : cont op d t [] = (d, endRes op t) := by
  cases op <;> simp [cont, BitSet.set, clear, toggle, testLoop, unitRes, boolRes, endRes]

theorem cont_skip (d : BitVec w) (i : Int) (is : List Int) : cont .test d true (i :: is) = cont .test d true is := by
  simp [cont, testLoop]

theorem cont_neg (op : Op) (d : BitVec w) (t : Bool) {i : Int} (is : List Int) (h : i < 0) (ht : op = .test → t = false) :
    cont op d t (i :: is) = (d, .panic) := by
  cases op
  case test => rw [ht rfl]; simp [cont, testLoop, bit_neg h, boolRes]
  all_goals simp [cont, BitSet.set, clear, toggle, bit_neg h, unitRes]

theorem cont_look (d : BitVec w) {i : Int} (is : List Int) (h : 0 ≤ i) :
    cont .test d false (i :: is) = cont .test d (d &&& 1#w <<< i.toNat != 0#w) is := by
  simp [cont, testLoop, bit_ret h]

theorem cont_store (op : Op) (d : BitVec w) (t : Bool) {i : Int} (is : List Int) (h : 0 ≤ i) (ho : op ≠ .test) :
    cont op d t (i :: is) = cont op (app op i d) false is := by
  cases op
  case test => exact absurd rfl ho
  all_goals simp [cont, BitSet.set, clear, toggle, bit_ret h, app]

theorem alone_snoc (d : BitVec w) (cs : List Call) (c : Call) : alone d (cs ++ [c]) =
    ((doCall (alone d cs).1 c).1, (alone d cs).2 ++ [(doCall (alone d cs).1 c).2]) := by
  induction cs generalizing d with
  | nil => rfl
  | cons x cs ih => simp [alone, ih]

theorem alone_prefix (d : BitVec w) (cs ds : List Call) : (alone d cs).2 <+: (alone d (cs ++ ds)).2 := by
  induction cs generalizing d with
  | nil => exact List.nil_prefix
  | cons x cs ih => exact List.cons_prefix_cons.2 ⟨rfl, ih _⟩

/-! ## Bits -/

theorem one_bit (n k : Nat) (hk : k < w) : (1#w <<< n).getLsbD k = decide (k = n) := by
  rw [BitVec.getLsbD_shiftLeft]
  simp only [BitVec.getLsbD_one]
  by_cases h : k < n
  · simp [h]; omega
  · by_cases h' : k = n
    · subst h'; simp [hk]; omega
    · have : k - n ≠ 0 := by omega
      simp [h', this]

theorem app_bit (op : Op) {i : Int} (hi : 0 ≤ i) (d : BitVec w) {k : Nat} (hk : k < w) (hne : (k : Int) ≠ i) :
    (app op i d).getLsbD k = d.getLsbD k := by
  have h1 : (1#w <<< i.toNat).getLsbD k = false := by rw [one_bit _ _ hk]; exact decide_eq_false (by omega)
  cases op
  · rw [app, BitVec.getLsbD_or, h1, Bool.or_false]
  · rw [app, BitVec.getLsbD_and, BitVec.getLsbD_not, h1]; simp [hk]
  · rw [app, BitVec.getLsbD_xor, h1, Bool.xor_false]
  · rfl

theorem app_agree (op : Op) (i : Int) {d a : BitVec w} {k : Nat} (hk : k < w) (h : d.getLsbD k = a.getLsbD k) :
    (app op i d).getLsbD k = (app op i a).getLsbD k := by
  cases op <;> simp [app, h]

theorem look_agree {i : Int} {d a : BitVec w} (h : ∀ k, k < w → (k : Int) = i → d.getLsbD k = a.getLsbD k) (hi : 0 ≤ i) :
    d &&& 1#w <<< i.toNat = a &&& 1#w <<< i.toNat := by
  apply BitVec.eq_of_getLsbD_eq
  intro k hk
  rw [BitVec.getLsbD_and, BitVec.getLsbD_and, one_bit _ _ hk]
  by_cases e : k = i.toNat
  · rw [h k hk (by omega)]
  · simp [e]

/-! ## One goroutine -/

/-- How far the goroutine with calls `all` has come, had it been alone, with the word `a`. -/
inductive Track (d0 : BitVec w) (all : List Call) : Th w → BitVec w → Prop
  | idle {past cs res a} : past ++ cs = all → alone d0 past = (a, res) → Track d0 all ⟨cs, .idle, res⟩ a
  | loop {past c cs t is res a} : past ++ c :: cs = all → (alone d0 past).2 = res → doCall (alone d0 past).1 c = cont c.op a t is →
      (∀ i ∈ is, i ∈ c.is) → Track d0 all ⟨cs, .loop c.op t is, res⟩ a
  | mid {past c cs i is reg res a} : past ++ c :: cs = all → (alone d0 past).2 = res → doCall (alone d0 past).1 c = cont c.op a false (i :: is) →
      (∀ j ∈ i :: is, j ∈ c.is) → c.op ≠ .test → 0 ≤ i → Track d0 all ⟨cs, .mid c.op i is reg, res⟩ a
  | fin {past c cs r res a} : past ++ c :: cs = all → (alone d0 past).2 = res → doCall (alone d0 past).1 c = (a, r) →
      Track d0 all ⟨cs, .fin r, res⟩ a

/-- The real word and the goroutine's agree on the bits it uses. -/
def Agree (all : List Call) (d a : BitVec w) : Prop := ∀ k, k < w → Names all k → d.getLsbD k = a.getLsbD k

/-- What was read is the word. -/
def Fresh (d : BitVec w) (h : Th w) : Prop := ∀ op i is reg, h.pc = .mid op i is reg → reg = d

theorem track_res {d0 : BitVec w} {all : List Call} {h : Th w} {a : BitVec w} (ht : Track d0 all h a) : h.res <+: (alone d0 all).2 := by
  cases ht with
  | @idle past cs _ _ h1 h2 => rw [← h1]; have := alone_prefix d0 past cs; rw [h2] at this; exact this
  | loop h1 h2 _ _ => rw [← h1, ← h2]; exact alone_prefix d0 _ _
  | mid h1 h2 _ _ _ _ => rw [← h1, ← h2]; exact alone_prefix d0 _ _
  | fin h1 h2 _ => rw [← h1, ← h2]; exact alone_prefix d0 _ _

theorem names_of {past cs : List Call} {c : Call} {all : List Call} (h : past ++ c :: cs = all) {k : Nat} (hk : (k : Int) ∈ c.is) :
    Names all k := ⟨c, by rw [← h]; simp, hk⟩

theorem track_step {d0 : BitVec w} {all : List Call} {h h' : Th w} {a d d' : BitVec w} {l : Lab} (ht : Track d0 all h a) (ha : Agree all d a)
    (hf : Fresh d h) (m : Mv d h l d' h') :
    ∃ a', Track d0 all h' a' ∧ Agree all d' a' ∧ (∀ k, k < w → ¬ Names all k → d'.getLsbD k = d.getLsbD k) ∧ Fresh d' h' := by
  have nomid : ∀ {d : BitVec w} {h : Th w}, (∀ op i is reg, h.pc ≠ .mid op i is reg) → Fresh d h := fun hn op i is reg e => absurd e (hn _ _ _ _)
  cases m with
  | call =>
    cases ht with
    | @idle past _ _ _ h1 h2 =>
      exact ⟨a, .loop (past := past) h1 (by rw [h2]) (by rw [doCall_cont, h2]) (fun i hi => hi), ha, fun _ _ _ => rfl, nomid (by simp)⟩
  | done =>
    cases ht with
    | loop h1 h2 h3 h4 =>
      exact ⟨a, .fin h1 h2 (by rw [h3, cont_nil]), ha, fun _ _ _ => rfl, nomid (by simp)⟩
  | @skip i is cs res =>
    generalize hp : Pc.loop .test true (i :: is) = p at ht
    cases ht with
    | idle => cases hp
    | mid => cases hp
    | fin => cases hp
    | @loop past c cs t is' res a h1 h2 h3 h4 =>
      have ho : c.op = .test := by injection hp with e1 e2 e3; exact e1.symm
      injection hp with e1 e2 e3
      subst e2 e3
      have := Track.loop (t := true) (is := is) (a := a) h1 h2 (by rw [h3, ho, cont_skip]) (fun i hi => h4 i (List.mem_cons_of_mem _ hi))
      rw [ho] at this
      exact ⟨a, this, ha, fun _ _ _ => rfl, nomid (by simp)⟩
  | neg hn htt =>
    cases ht with
    | loop h1 h2 h3 h4 =>
      exact ⟨a, .fin h1 h2 (by rw [h3, cont_neg _ _ _ _ hn htt]), ha, fun _ _ _ => rfl, nomid (by simp)⟩
  | @look i is cs res hi =>
    generalize hp : Pc.loop .test false (i :: is) = p at ht
    cases ht with
    | idle => cases hp
    | mid => cases hp
    | fin => cases hp
    | @loop past c cs t is' res a h1 h2 h3 h4 =>
      have ho : c.op = .test := by injection hp with e1 e2 e3; exact e1.symm
      injection hp with e1 e2 e3
      subst e2 e3
      have hl := look_agree (i := i) (d := d) (a := a) (fun k hk e => ha k hk (names_of h1 (by rw [e]; exact h4 i List.mem_cons_self))) hi
      have := Track.loop (t := d &&& 1#w <<< i.toNat != 0#w) (is := is) (a := a) h1 h2 (by rw [h3, ho, cont_look _ _ hi, hl])
        (fun i hi => h4 i (List.mem_cons_of_mem _ hi))
      rw [ho] at this
      exact ⟨a, this, ha, fun _ _ _ => rfl, nomid (by simp)⟩
  | load hi hne =>
    cases ht with
    | loop h1 h2 h3 h4 =>
      refine ⟨a, .mid h1 h2 ?_ h4 hne hi, ha, fun _ _ _ => rfl, ?_⟩
      · rw [h3, cont_store _ _ _ _ hi hne, cont_store _ _ _ _ hi hne]
      · intro op i is reg e; cases e; rfl
  | @store op i is reg cs res =>
    cases ht with
    | @mid past c _ _ _ _ _ _ h1 h2 h3 h4 h5 h6 =>
      have hr : reg = d := hf _ _ _ _ rfl
      subst hr
      refine ⟨app c.op i a, .loop h1 h2 (by rw [h3, cont_store _ _ _ _ h6 h5]) (fun j hj => h4 j (List.mem_cons_of_mem _ hj)), ?_, ?_, nomid (by simp)⟩
      · intro k hk hn
        exact app_agree _ _ hk (ha k hk hn)
      · intro k hk hn
        exact app_bit _ h6 _ hk (fun e => hn (names_of h1 (by rw [e]; exact h4 i List.mem_cons_self)))
  | ret =>
    cases ht with
    | @fin past c cs r res a h1 h2 h3 =>
      refine ⟨a, .idle (past := past ++ [c]) (by rw [List.append_assoc]; exact h1) ?_, ha, fun _ _ _ => rfl, nomid (by simp)⟩
      rw [alone_snoc, h3, h2]

theorem mv_word {d d' : BitVec w} {h h' : Th w} {l : Lab} (m : Mv d h l d' h') : d' = d ∨ ∃ op i is reg, h.pc = .mid op i is reg := by
  cases m <;> first | exact .inl rfl | exact .inr ⟨_, _, _, _, rfl⟩

/-! ## Behind the mutex -/

/-- The goroutine that holds the mutex is the one that is in a call. -/
def Holder (s : St w) : Prop := ∀ t, s.mu = some t ↔ (s.thr t).pc ≠ .idle

theorem mv_holder {d d' : BitVec w} {h h' : Th w} {l : Lab} (m : Mv d h l d' h') :
    (l = .acq ∧ h.pc = .idle ∧ h'.pc ≠ .idle) ∨ (l = .rel ∧ h.pc ≠ .idle ∧ h'.pc = .idle) ∨ (l = .none ∧ h.pc ≠ .idle ∧ h'.pc ≠ .idle) := by
  cases m <;> simp

theorem holder_step {t : Nat} {s s' : St w} (hi : Holder s) (hs : Step true t s s') : Holder s' := by
  cases hs with
  | @mk l d th m hmu =>
    intro u
    show muAfter s.mu t l = some u ↔ (upd s.thr t th u).pc ≠ .idle
    have ht := hi t
    have hu := hi u
    rcases mv_holder m with ⟨rfl, h1, h2⟩ | ⟨rfl, h1, h2⟩ | ⟨rfl, h1, h2⟩
    · have hn := hmu rfl rfl
      by_cases e : u = t
      · subst e; simp [muAfter, h2]
      · rw [upd_ne _ _ e, ← hu, hn]; simp [muAfter, Ne.symm e]
    · have hn := ht.2 h1
      by_cases e : u = t
      · subst e; simp [muAfter, h2]
      · rw [upd_ne _ _ e, ← hu, hn]; simp [muAfter, Ne.symm e]
    · by_cases e : u = t
      · subst e; simp [muAfter, h2, ht, h1]
      · rw [upd_ne _ _ e, ← hu]; rfl

theorem holder_reach {d : BitVec w} {prog : Nat → List Call} {s : St w} (h : Reach true d prog s) : Holder s := by
  induction h with
  | start => intro t; simp [start]
  | step _ hs ih => exact holder_step ih hs

structure Inv (d0 : BitVec w) (prog : Nat → List Call) (s : St w) : Prop where
  track : ∀ t, ∃ a, Track d0 (prog t) (s.thr t) a ∧ Agree (prog t) s.data a
  fresh : ∀ t, Fresh s.data (s.thr t)
  rest : ∀ k, k < w → (∀ t, ¬ Names (prog t) k) → s.data.getLsbD k = d0.getLsbD k

theorem inv_step {d0 : BitVec w} {prog : Nat → List Call} (hap : Apart w prog) {t : Nat} {s s' : St w} (hh : Holder s) (hi : Inv d0 prog s)
    (hs : Step true t s s') : Inv d0 prog s' := by
  cases hs with
  | @mk l d th m hmu =>
    obtain ⟨a, h1, h2⟩ := hi.track t
    obtain ⟨a', h3, h4, h5, h6⟩ := track_step h1 h2 (hi.fresh t) m
    refine ⟨?_, ?_, ?_⟩
    · intro u
      show ∃ a, Track d0 (prog u) (upd s.thr t th u) a ∧ Agree (prog u) d a
      by_cases e : u = t
      · subst e; rw [upd_same]; exact ⟨a', h3, h4⟩
      · obtain ⟨b, h7, h8⟩ := hi.track u
        rw [upd_ne _ _ e]
        refine ⟨b, h7, fun k hk hn => ?_⟩
        rw [h5 k hk (hap u t k e hk hn)]
        exact h8 k hk hn
    · intro u
      show Fresh d (upd s.thr t th u)
      by_cases e : u = t
      · subst e; rw [upd_same]; exact h6
      · rw [upd_ne _ _ e]
        intro op i is reg hp
        rcases mv_word m with rfl | ⟨_, _, _, _, hq⟩
        · exact hi.fresh u op i is reg hp
        · have hu := (hh u).2 (by rw [hp]; simp)
          have ht := (hh t).2 (by rw [hq]; simp)
          rw [hu] at ht; cases ht; exact absurd rfl e
    · intro k hk hn
      show d.getLsbD k = _
      rw [h5 k hk (hn t)]; exact hi.rest k hk hn

theorem inv_reach {d0 : BitVec w} {prog : Nat → List Call} (hap : Apart w prog) {s : St w} (h : Reach true d0 prog s) : Inv d0 prog s := by
  induction h with
  | start =>
    refine ⟨fun t => ⟨d0, .idle (past := []) rfl rfl, fun _ _ _ => rfl⟩, fun t op i is reg e => (by cases e), fun _ _ _ => rfl⟩
  | step hr hs ih => exact inv_step hap (holder_reach hr) ih hs

/-! ## Only readers -/

theorem readers_reach {locked : Bool} {d0 : BitVec w} {prog : Nat → List Call} (ht : ∀ t, ∀ c ∈ prog t, c.op = .test) {s : St w}
    (h : Reach locked d0 prog s) : s.data = d0 ∧ ∀ t, Track d0 (prog t) (s.thr t) d0 ∧ ∀ op i is reg, (s.thr t).pc ≠ .mid op i is reg := by
  have hdo : ∀ c : Call, c.op = .test → ∀ d : BitVec w, (doCall d c).1 = d := by
    intro c hc d; unfold doCall; rw [hc]
  have hal : ∀ cs : List Call, (∀ c ∈ cs, c.op = .test) → ∀ d : BitVec w, (alone d cs).1 = d := by
    intro cs
    induction cs with
    | nil => intro _ d; rfl
    | cons c cs ih =>
      intro hc d
      show (alone (doCall d c).1 cs).1 = d
      rw [hdo c (hc c List.mem_cons_self), ih (fun x hx => hc x (List.mem_cons_of_mem _ hx))]
  -- the goroutine's own word is always `d0`
  have own : ∀ t (h : Th w) a, Track d0 (prog t) h a → (∀ op i is reg, h.pc ≠ .mid op i is reg) → a = d0 := by
    intro t h a htr hm
    cases htr with
    | @idle past cs res a h1 h2 =>
      have := hal past (fun c hc => ht t c (by rw [← h1]; exact List.mem_append_left _ hc)) d0
      rw [h2] at this; exact this
    | @loop past c cs tt is res a h1 h2 h3 h4 =>
      have hc : c.op = .test := ht t c (by rw [← h1]; simp)
      have := hal past (fun c hc => ht t c (by rw [← h1]; exact List.mem_append_left _ hc)) d0
      have h5 := congrArg Prod.fst h3
      rw [hdo c hc, hc, this] at h5
      exact h5.symm
    | mid => exact absurd rfl (hm _ _ _ _)
    | @fin past c cs r res a h1 h2 h3 =>
      have hc : c.op = .test := ht t c (by rw [← h1]; simp)
      have := hal past (fun c hc => ht t c (by rw [← h1]; exact List.mem_append_left _ hc)) d0
      have h5 := congrArg Prod.fst h3
      rw [hdo c hc, this] at h5
      exact h5.symm
  induction h with
  | start => exact ⟨rfl, fun t => ⟨.idle (past := []) rfl rfl, fun _ _ _ _ e => by cases e⟩⟩
  | @step s s' u _ hs ih =>
    cases hs with
    | @mk l d th m hmu =>
      obtain ⟨ih1, ih2⟩ := ih
      have hd : d = d0 := by
        rcases mv_word m with h | ⟨_, _, _, _, h⟩
        · rw [h, ih1]
        · exact absurd h ((ih2 u).2 _ _ _ _)
      have hm : ∀ op i is reg, th.pc ≠ .mid op i is reg := by
        intro op i is reg hp
        have hu := (ih2 u).1
        generalize s.thr u = q at m hu
        cases m with
        | load _ hne =>
          cases hu with
          | @loop past c cs tt is res a h1 h2 h3 h4 => exact hne (ht u c (by rw [← h1]; simp))
        | _ => cases hp
      obtain ⟨a', h3, _, _, _⟩ := track_step (d := s.data) (ih2 u).1 (by rw [ih1]; exact fun _ _ _ => rfl)
        (fun op i is reg e => absurd e ((ih2 u).2 _ _ _ _)) m
      refine ⟨hd, fun t => ?_⟩
      show Track d0 (prog t) (upd s.thr u th t) d0 ∧ ∀ op i is reg, (upd s.thr u th t).pc ≠ _
      by_cases e : t = u
      · subst e
        rw [upd_same]
        have := own t th a' h3 hm
        subst this
        exact ⟨h3, hm⟩
      · rw [upd_ne _ _ e]; exact ih2 t

/-! ## The end -/

def costs : List Call → Nat
  | [] => 0
  | c :: cs => 2 * c.is.length + 3 + costs cs

def left : Pc w → Nat
  | .idle => 0
  | .loop _ _ is => 2 * is.length + 2
  | .mid _ _ is _ => 2 * is.length + 3
  | .fin _ => 1

/-- The steps a goroutine still makes, at most. -/
def Th.cost (h : Th w) : Nat := costs h.calls + left h.pc

theorem mv_cost {d d' : BitVec w} {h h' : Th w} {l : Lab} (m : Mv d h l d' h') : h'.cost < h.cost := by
  cases m <;> simp only [Th.cost, costs, left, List.length_cons, List.length_nil] <;> omega

/-- A goroutine in a call can step. -/
theorem can_mv (d : BitVec w) (h : Th w) (hp : h.pc ≠ .idle) : ∃ l d' h', Mv d h l d' h' ∧ l ≠ .acq := by
  obtain ⟨cs, pc, res⟩ := h
  cases pc with
  | idle => exact absurd rfl hp
  | loop op t is =>
    cases is with
    | nil => exact ⟨_, _, _, .done, by simp⟩
    | cons i is =>
      by_cases hs : op = .test ∧ t = true
      · obtain ⟨rfl, rfl⟩ := hs; exact ⟨_, _, _, .skip, by simp⟩
      · by_cases hn : i < 0
        · refine ⟨_, _, _, .neg hn (fun e => ?_), by simp⟩
          cases t
          · rfl
          · exact absurd ⟨e, rfl⟩ hs
        · by_cases ho : op = .test
          · subst ho
            cases t
            · exact ⟨_, _, _, .look (by omega), by simp⟩
            · exact absurd ⟨rfl, rfl⟩ hs
          · exact ⟨_, _, _, .load (by omega) ho, by simp⟩
  | mid op i is reg => exact ⟨_, _, _, .store, by simp⟩
  | fin r => exact ⟨_, _, _, .ret, by simp⟩

end Verif.BitShare
