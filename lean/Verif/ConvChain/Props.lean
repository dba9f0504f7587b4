import Verif.ConvChain.Lemmas
/-!
# C141: conversions can be chained
-/
namespace Verif.ConvChain
open Verif.Go Verif.ConvNum Verif.ConvFloat Verif.ConvReg Verif.ConvInit

/-- The full claim: if a value survives the trip to a type and back, then a conversion through that type is the direct
conversion. -/
def C141_full : Prop := ∀ (E : Env) (T M R : B) (x : Val E T) (y : Val E M) (z w : Val E R), Valid (kind E T) x →
  into (U := univ E) (ty E T) (ty E M) (some (box E T x)) (run (init E)) = .ret (some (box E M y), true) →
  into (U := univ E) (ty E M) (ty E T) (some (box E M y)) (run (init E)) = .ret (some (box E T x), true) →
  into (U := univ E) (ty E M) (ty E R) (some (box E M y)) (run (init E)) = .ret (some (box E R z), true) →
  into (U := univ E) (ty E T) (ty E R) (some (box E T x)) (run (init E)) = .ret (some (box E R w), true) → z = w

/-- **C141 (partial).** A number that all types on the way have (integers, floats, strings) arrives as the same number,
however many conversions it takes and whatever the program has registered for other types. Missing from the full claim:
types that do not have the number, booleans, and floats written out (how `strconv` writes them is left open). -/
theorem C141_partial (E : Env) (h : List (Op (univ E))) (hl : Leaves E h) (i : Int) (T : B) (Rs : List B) (x : Val E T)
    (hw : Way E i T Rs) (hx : Holds i (kind E T) x) :
    ∃ y : Val E ((T :: Rs).getLast (by simp)), Holds i _ y ∧
      chain E (run (init E ++ h)) (some (box E T x)) T Rs = .ret (some (box E _ y), true) :=
  chain_holds E h hl Rs T x hw hx

/-- So all ways lead to the same value. -/
theorem C141_any_way (E : Env) (h : List (Op (univ E))) (hl : Leaves E h) (i : Int) (T R : B) (Rs Rs' : List B) (x : Val E T)
    (hw : Way E i T (Rs ++ [R])) (hw' : Way E i T (Rs' ++ [R])) (hx : Holds i (kind E T) x) :
    chain E (run (init E ++ h)) (some (box E T x)) T (Rs ++ [R]) =
      chain E (run (init E ++ h)) (some (box E T x)) T (Rs' ++ [R]) := by
  obtain ⟨y, hy, e⟩ := chain_holds E h hl _ T x hw hx
  obtain ⟨z, hz, e'⟩ := chain_holds E h hl _ T x hw' hx
  rw [e, e']
  have key : ∀ (S S' : B) (u : Val E S) (v : Val E S'), S = S' → Holds i (kind E S) u → Holds i (kind E S') v →
      box E S u = box E S' v := by
    rintro S _ u v rfl hu hv
    rw [holds_unique hu hv]
  rw [key _ _ y z (by simp) hy hz]

/-- **C141, booleans**: one that starts as a number keeps its truth on every such way back. -/
theorem C141_bool (E : Env) (h : List (Op (univ E))) (hl : Leaves E h) (b : Bool) (T : B) (Rs : List B)
    (hw : Way E (bit b) T Rs) (hT : T ≠ .string) (hR : (T :: Rs).getLast (by simp) ≠ .string) :
    chain E (run (init E ++ h)) (some (box E .bool b)) .bool (T :: Rs ++ [.bool]) = .ret (some (box E .bool b), true) := by
  have hcT := can_basic E (way_head E hw)
  obtain ⟨_, hi, _⟩ := C85_builtin E h .bool T fun o ho => hl o ho _ _
  obtain ⟨x, hm, e⟩ := hi (C85_all_basic .bool T (by decide) ⟨hcT.1, hcT.2.1⟩) b trivial
  have hx : Holds (bit b) (kind E T) x := bool_holds E (fun h => hT (kind_str E h)) (way_head E hw) hm
  obtain ⟨y, hy, e'⟩ := chain_holds E h hl Rs T x hw hx
  have hcL := way_last E hw
  have hbL := can_basic E hcL
  obtain ⟨_, hi, _⟩ := C85_builtin E h ((T :: Rs).getLast (by simp)) .bool fun o ho => hl o ho _ _
  obtain ⟨c, hm', e''⟩ := hi (C85_all_basic _ .bool ⟨hbL.1, hbL.2.1⟩ (by decide)) y (valid_of E hy hcL)
  have hc : c = b := holds_bool E (fun h => hR (kind_str E h)) hy hm'
  subst hc
  rw [List.cons_append, chain, e, Outcome.bind_ret, if_pos rfl, chain_append _ _ _ _ _ _ e']
  rw [chain, e'', Outcome.bind_ret, if_pos rfl, chain]

/-- -5 as int8, through a string, float32, int64 and a string, to int16. -/
example : Way exE (-5) .int8 [.string, .float32, .int64, .string, .int16] ∧ Holds (-5) (kind exE .int8) (-5 : Int) := by
  have h8 : Can (-5) (kind exE .int8) := by show InTy _ _; unfold InTy; norm_num
  have h16 : Can (-5) (kind exE .int16) := by show InTy _ _; unfold InTy; norm_num
  have h64 : Can (-5) (kind exE .int64) := by show InTy _ _; unfold InTy; norm_num
  have hf : Can (-5) (kind exE .float32) := ⟨5, 0, by decide, by decide, by decide, by norm_num⟩
  exact ⟨⟨h8, by decide, trivial, by decide, hf, by decide, h64, by decide, trivial, by decide, h16⟩, rfl⟩

/-- **C141, integers, exactly**: a conversion through an integer type is the direct one for all values if and only if
the type is at least as wide as the target or has all values of the source. -/
theorem C141_ints (t m r : IntTy) (ht : t.IsGo) (hm : m.IsGo) (hr : r.IsGo) :
    (∀ x, InTy t x → ConvNum.integerToInteger m r (ConvNum.integerToInteger t m x) = ConvNum.integerToInteger t r x) ↔ r.bits ≤ m.bits ∨ Sub t m := by
  have bt := (go_bits ht).1
  have bm := (go_bits hm).1
  have br := (go_bits hr).1
  simp only [ConvNum.integerToInteger]
  constructor
  · intro h
    by_contra hc
    push Not at hc
    obtain ⟨hlt, hns⟩ := hc
    obtain ⟨b, hb, hd⟩ := beside bt bm hns
    have e := h b hb
    have h1 := (conv_spec br (conv m b)).2
    have h2 := (conv_spec br b).2
    rw [e] at h1
    have h3 : (2 : Int) ^ r.bits ∣ conv m b - b := by
      have := Int.dvd_sub h2 h1
      rwa [show conv r b - b - (conv r b - conv m b) = conv m b - b by ring] at this
    have h4 : (2 : Int) ^ r.bits ∣ 2 ^ m.bits := by
      rcases hd with hd | hd
      · rwa [hd] at h3
      · rw [hd] at h3; exact (Int.dvd_neg).1 h3
    have := Int.le_of_dvd (by positivity) h4
    have h5 : (2 : Int) ^ m.bits < 2 ^ r.bits := pow_lt_pow_right₀ (by norm_num) hlt
    omega
  · rintro (hle | hs) x hx
    · refine inTy_unique br (conv_spec br _).1 (conv_spec br _).1 ?_
      have h1 := (conv_spec br (conv m x)).2
      have h2 := (conv_spec br x).2
      have h3 : (2 : Int) ^ r.bits ∣ conv m x - x := Int.dvd_trans (pow_dvd_pow 2 hle) (conv_spec bm x).2
      have := Int.dvd_sub (Int.dvd_add h1 h3) h2
      rwa [show conv r (conv m x) - conv m x + (conv m x - x) - (conv r x - x) = conv r (conv m x) - conv r x by ring] at this
    · rw [conv_fits bm (hs x hx)]

example : Sub ⟨false, 8⟩ ⟨true, 16⟩ := by
  intro x hx
  unfold InTy at *
  norm_num at *
  omega

/-- What a string makes of an integer on its way. -/
theorem C141_string_value (t r : IntTy) (ht : t.IsGo) (hr : r.IsGo) (x : Int) (hx : InTy t x) :
    viaString t r x = if r.signed then conv r (min (2 ^ 63 - 1) x) else if x < 0 then 0 else conv r x := by
  have br := (go_bits hr).1
  have hc : Canonical (written t x) x := by
    unfold written
    cases hs : t.signed with
    | true => exact (C64_signed_round_trip t ht hs x hx).1
    | false => exact (C64_unsigned_round_trip t ht hs x hx).1
  have hb : -2 ^ 63 ≤ x ∧ x < 2 ^ 64 := by
    cases hs : t.signed with
    | true => have := signed_int64 ht hs hx; omega
    | false => have := unsigned_uint64 ht hs hx; omega
  unfold viaString
  cases hs : r.signed with
  | true =>
    simp only [if_true]
    rw [(C65_total_partial r _).1 x (canonical_snumeral hc)]
    congr 1
    omega
  | false =>
    simp only [Bool.false_eq_true, if_false]
    rcases hc with ⟨n, rfl, hn, -⟩ | ⟨u, n, e, rfl, hn, -, -⟩
    · rw [(C65_total_partial r _).2.1 n hn, if_neg (by omega)]
      congr 1
      omega
    · rw [if_pos (by omega), e, show (45 :: u : List UInt8) = [] ++ 45 :: u from rfl, (C65_total_partial r _).2.2.1 [] (45 :: u) rfl (by simp) (by
        intro c hc
        simp only [List.head?_cons, Option.some.injEq] at hc
        subst hc; decide) (.inl (by simp)) (by decide)]
      exact conv_fits br (zero_in r)

/-- **C141, integers through strings, exactly**: the result is the direct one for all values if and only if the target
is signed when the source is, and unsigned when the source is the widest unsigned type. -/
theorem C141_string (t r : IntTy) (ht : t.IsGo) (hr : r.IsGo) :
    (∀ x, InTy t x → viaString t r x = ConvNum.integerToInteger t r x) ↔
      (t.signed = true → r.signed = true) ∧ (t.signed = false → t.bits = 64 → r.signed = false) := by
  have bt := go_bits ht
  have br := go_bits hr
  constructor
  · intro h
    refine ⟨fun hs => ?_, fun hs h64 => ?_⟩
    · by_contra hc
      rw [Bool.not_eq_true] at hc
      have h1 : InTy t (-1) := by
        unfold InTy
        rw [if_pos hs]
        have : (0 : Int) < 2 ^ (t.bits - 1) := by positivity
        omega
      have := h (-1) h1
      rw [C141_string_value t r ht hr _ h1, hc, if_neg (by simp), if_pos (by norm_num)] at this
      have hd := (conv_spec br.1 (-1)).2
      simp only [ConvNum.integerToInteger] at this
      rw [← this] at hd
      have := Int.le_of_dvd (by norm_num) hd
      have := two_le_pow br.1
      omega
    · by_contra hc
      rw [Bool.not_eq_false] at hc
      have h1 : InTy t (2 ^ 63) := by
        unfold InTy
        rw [if_neg (by simp [hs]), h64]
        norm_num
      have := h _ h1
      rw [C141_string_value t r ht hr _ h1, hc, if_pos rfl] at this
      simp only [ConvNum.integerToInteger] at this
      have hd := Int.dvd_sub (conv_spec br.1 (2 ^ 63)).2 (conv_spec br.1 (min (2 ^ 63 - 1) (2 ^ 63))).2
      rw [this] at hd
      have e : conv r (2 ^ 63) - 2 ^ 63 - (conv r (2 ^ 63) - min (2 ^ 63 - 1) (2 ^ 63)) = -1 := by
        rw [min_eq_left (by omega)]; ring
      rw [e] at hd
      have := Int.le_of_dvd (by norm_num) ((Int.dvd_neg).1 hd)
      have := two_le_pow br.1
      omega
  · rintro ⟨h1, h2⟩ x hx
    rw [C141_string_value t r ht hr x hx]
    simp only [ConvNum.integerToInteger]
    cases hs : t.signed with
    | true =>
      rw [if_pos (h1 hs)]
      have := signed_int64 ht hs hx
      rw [min_eq_right (by omega)]
    | false =>
      have hu := unsigned_uint64 ht hs hx
      cases hr' : r.signed with
      | false => rw [if_neg (by simp), if_neg (by omega)]
      | true =>
        rw [if_pos rfl]
        have hb : t.bits ≠ 64 := fun h => by rw [h2 hs h] at hr'; cases hr'
        have hb' : t.bits ≤ 63 := by omega
        have hp : (2 : Int) ^ t.bits ≤ 2 ^ 63 := pow_le_pow_right₀ (by norm_num) hb'
        unfold InTy at hx
        rw [if_neg (by simp [hs])] at hx
        rw [min_eq_right (by omega)]

/-- These are the numbers that come out of `Into` after `Into`, and out of one `Into`. -/
theorem C141_through (E : Env) (h : List (Op (univ E))) (hl : Leaves E h) (T M R : B) (t m r : IntTy) (hT : kind E T = .int t)
    (hM : kind E M = .int m) (hR : kind E R = .int r) (x : Val E T) (i : Int) (hi : num (kind E T) x = some i) :
    (∃ y : Val E R, num (kind E R) y = some (ConvNum.integerToInteger m r (ConvNum.integerToInteger t m i)) ∧
      chain E (run (init E ++ h)) (some (box E T x)) T [M, R] = .ret (some (box E R y), true)) ∧
    (∃ y : Val E R, num (kind E R) y = some (viaString t r i) ∧
      chain E (run (init E ++ h)) (some (box E T x)) T [.string, R] = .ret (some (box E R y), true)) ∧
    (∃ y : Val E R, num (kind E R) y = some (ConvNum.integerToInteger t r i) ∧
      chain E (run (init E ++ h)) (some (box E T x)) T [R] = .ret (some (box E R y), true)) := by
  have nb : ∀ (S : B) (s : IntTy), kind E S = .int s → S ≠ .bytes ∧ S ≠ .runes := fun S s hs =>
    ⟨fun e => (by subst e; cases hs), fun e => (by subst e; cases hs)⟩
  have has : ∀ (S S' : B) (s s' : IntTy), kind E S = .int s → kind E S' = .int s' → Has S S' = true := fun S S' s s' h1 h2 =>
    C85_all_basic S S' (nb S s h1) (nb S' s' h2)
  obtain ⟨f, hf, hfx⟩ := conv1_int E T M t m hT hM
  obtain ⟨g, hg, hgx⟩ := conv1_int E M R m r hM hR
  obtain ⟨d, hd, hdx⟩ := conv1_int E T R t r hT hR
  obtain ⟨w, hw, hwx⟩ := conv1_write E T t hT
  obtain ⟨p, hp, hpx⟩ := conv1_read E R r hR
  refine ⟨⟨g (f x), hgx _ _ (hfx x i hi), ?_⟩, ⟨p (w x), ?_, ?_⟩, ⟨d x, hdx x i hi, ?_⟩⟩
  · rw [chain, into_conv1 E h hl T M (has T M t m hT hM) f hf, Outcome.bind_ret, if_pos rfl, chain,
      into_conv1 E h hl M R (has M R m r hM hR) g hg, Outcome.bind_ret, if_pos rfl, chain]
  · rw [hpx, hwx x i hi]
    unfold viaString
    split <;> rfl
  · rw [chain, into_conv1 E h hl T .string (C85_all_basic T _ (nb T t hT) (by decide)) w hw, Outcome.bind_ret, if_pos rfl, chain]
    show ((into (U := univ E) (ty E .string) (ty E R) (some (box E .string (show Val E .string from w x))) (run (init E ++ h))).bind _) = _
    rw [into_conv1 E h hl .string R (C85_all_basic _ R (by decide) (nb R r hR)) p hp, Outcome.bind_ret, if_pos rfl, chain]
  · rw [chain, into_conv1 E h hl T R (has T R t r hT hR) d hd, Outcome.bind_ret, if_pos rfl, chain]

/-- **C141, floats**: through float64 a float32 becomes what it becomes directly. -/
theorem C141_floats (S : Strconv) (x : Flt) (hx : IsFlt f32 x) (r : IntTy) (impl : Flt → Int) :
    ConvFloat.floatToInteger r impl (floatToFloat f64 x) = ConvFloat.floatToInteger r impl x ∧
    ConvFloat.floatToString S f64 (floatToFloat f64 x) = ConvFloat.floatToString S f32 x ∧
    ConvFloat.floatToBool (floatToFloat f64 x) = ConvFloat.floatToBool x ∧ floatToFloat f32 (floatToFloat f64 x) = x := by
  have h := C86_floats.1 x hx
  refine ⟨by rw [h.1], ?_, by rw [h.1], h.2⟩
  unfold ConvFloat.floatToString
  rw [h.1, h.1]

/-- An int64 through float64 is not what it is as a float32: it is rounded twice. -/
theorem C141_double_rounding :
    floatToFloat f32 (integerToFloat f64 (2 ^ 60 + 2 ^ 36 + 1)) ≠ integerToFloat f32 (2 ^ 60 + 2 ^ 36 + 1) := by
  rw [twice_rounded]
  obtain ⟨v, e, -, hn, -⟩ := C86_nearest f32 (.inr rfl) (2 ^ 60 + 2 ^ 36 + 1) (by rw [abs_of_nonneg] <;> norm_num)
  rw [e]
  intro h
  simp only [Flt.fin.injEq] at h
  obtain ⟨-, rfl⟩ := h
  have := hn (2 ^ 60 + 2 ^ 37) ⟨2 ^ 23 + 1, 37, by decide, by decide, by decide, by norm_num⟩
  rw [abs_of_nonneg (a := (((2 ^ 60 + 2 ^ 36 + 1 : Int)) : ℚ)) (by norm_num)] at this
  push_cast at this
  rw [abs_of_nonpos (by norm_num), abs_of_nonneg (by norm_num)] at this
  norm_num at this

/-- **C141 is false**: -1 survives the trip from int8 to uint8 and back, but through uint8 it becomes 255 as int16.
(And true survives the trip through strings, but becomes 0 through a string.) -/
theorem C141_refuted : ¬ C141_full ∧ ConvNum.stringToBool (ConvNum.boolToString true) = true ∧
    ConvNum.stringToInteger ⟨true, 8⟩ (ConvNum.boolToString true) = 0 ∧ ConvNum.boolToInteger ⟨true, 8⟩ true = 1 := by
  refine ⟨fun hf => ?_, by decide, by decide, by decide⟩
  have go : ∀ (T R : B) (x : Val exE T), Has T R = true → Valid (kind exE T) x → ∃ y : Val exE R, Means exE (kind exE T) (kind exE R) x y ∧
      into (U := univ exE) (ty exE T) (ty exE R) (some (box exE T x)) (run (init exE)) = .ret (some (box exE R y), true) := by
    intro T R x hh hx
    have := (C85_builtin exE [] T R (by simp)).2.1 hh x hx
    rwa [List.append_nil] at this
  have uniq : ∀ (t : IntTy) (x y z : Int), 1 ≤ t.bits → Congruent t x y → Congruent t x z → y = z := fun t x y z h h1 h2 =>
    inTy_unique h h1.1 h2.1 (by have := Int.dvd_sub h1.2 h2.2; rwa [show y - x - (z - x) = y - z by ring] at this)
  have v1 : Valid (kind exE .int8) (-1 : Int) := by show InTy _ _; unfold InTy; norm_num
  obtain ⟨y, my, ey⟩ := go .int8 .uint8 (-1 : Int) rfl v1
  have hy : y = (255 : Int) := uniq ⟨false, 8⟩ (-1) y 255 (by decide) my ⟨by unfold InTy; norm_num, by norm_num⟩
  subst hy
  have v2 : Valid (kind exE .uint8) (255 : Int) := by show InTy _ _; unfold InTy; norm_num
  obtain ⟨x, mx, ex⟩ := go .uint8 .int8 (255 : Int) rfl v2
  have hx : x = (-1 : Int) := uniq ⟨true, 8⟩ 255 x (-1) (by decide) mx ⟨by unfold InTy; norm_num, by norm_num⟩
  subst hx
  obtain ⟨z, mz, ez⟩ := go .uint8 .int16 (255 : Int) rfl v2
  have hz : z = (255 : Int) := uniq ⟨true, 16⟩ 255 z 255 (by decide) mz ⟨by unfold InTy; norm_num, by norm_num⟩
  subst hz
  obtain ⟨w, mw, ew⟩ := go .int8 .int16 (-1 : Int) rfl v1
  have hw : w = (-1 : Int) := uniq ⟨true, 16⟩ (-1) w (-1) (by decide) mw ⟨by unfold InTy; norm_num, by norm_num⟩
  subst hw
  have : (255 : Int) = -1 := hf exE .int8 .uint8 .int16 _ _ _ _ v1 ey ex ez ew
  omega

end Verif.ConvChain
