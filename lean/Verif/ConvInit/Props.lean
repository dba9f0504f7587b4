import Verif.ConvInit.Model
import Verif.ConvReg.Props
import Verif.ConvFloat.Props
import Verif.ConvUtf8.Props
/-!
# The converters there are at the start: property C85
-/
namespace Verif.ConvInit
open Verif.ConvNum Verif.ConvFloat Verif.ConvUtf8 Verif.ConvReg Verif.Go

/-! ## Specification -/

/-- The integer of the type that is congruent. -/
def Congruent (r : IntTy) (x y : Int) : Prop := InTy r y ∧ (2 : Int) ^ r.bits ∣ y - x

/-- The float nearest to an integer. -/
def NearestInt (F : Fmt) (x : Int) (y : Flt) : Prop := ∃ v, y = .fin (decide (x < 0)) v ∧ Nearest F |(x : ℚ)| v

/-- Runes, as `int32`. -/
def Int32s (x : List Int) : Prop := ∀ r ∈ x, -2 ^ 31 ≤ r ∧ r < 2 ^ 31

def word (b : Bool) : List UInt8 := (if b then "true" else "false").toList.map (fun c => UInt8.ofNat c.toNat)
def bit (b : Bool) : Int := if b then 1 else 0

/-- The values a Go variable of the kind can have. -/
def Valid : (k : Kind) → KVal k → Prop
  | .int t, x => InTy t x
  | .flt F, x => IsFlt F x
  | .runes, x => Int32s x
  | _, _ => True

/-- The zero value of a type. -/
def IsZero : (k : Kind) → KVal k → Prop
  | .int _, z => z = (0 : Int)
  | .flt _, z => z = Flt.fin false 0
  | .str, z => z = ([] : List UInt8)
  | .bool, z => z = false
  | .bytes, z => z = ([] : List UInt8)
  | .runes, z => z = ([] : List Int)

/-- What a conversion means, for each two kinds that have one. -/
def Means (E : Env) : (k k' : Kind) → KVal k → KVal k' → Prop
  -- the integer of the type that is congruent, the same one if it fits
  | .int _, .int r, x, y => Congruent r x y
  -- the nearest float
  | .int _, .flt F, x, y => NearestInt F x y
  -- without the fraction
  | .flt _, .int r, x, y => ∀ n q (z : Int), x = Flt.fin n q → InTy r z → |(z : ℚ)| ≤ q → q < |(z : ℚ)| + 1 →
      (0 < z → n = false) → (z < 0 → n = true) → y = z
  | .flt _, .flt F, x, y => (x = Flt.nan → y = Flt.nan) ∧ (∀ n, x = Flt.inf n → y = Flt.inf n) ∧
      (∀ n q, x = Flt.fin n q → NearestFlt F n q y)
  | .int _, .str, x, y => Canonical y x
  | .flt _, .str, x, y => E.S.parse y = x
  | .str, .int r, x, y => ∀ v : Int, Canonical x v → InTy r v → y = v
  | .str, .flt F, x, y => ∀ n q, Decimal x n q → Mag F q → y = Flt.fin n q
  | .bool, .int _, x, y => y = bit x
  | .bool, .flt _, x, y => y = Flt.fin false (bit x)
  | .bool, .str, x, y => y = word x
  | .int _, .bool, x, y => (y = true ↔ x ≠ (0 : Int))
  | .flt _, .bool, x, y => (y = false ↔ x = Flt.fin false 0 ∨ x = Flt.fin true 0)
  | .str, .bool, x, y => (y = true ↔ x ∈ ["1", "t", "T", "true", "TRUE", "True"].map (fun x => x.toList.map (fun c => UInt8.ofNat c.toNat)))
  | .str, .str, x, y => y = x
  | .bool, .bool, x, y => y = x
  | .str, .bytes, x, y => y = x
  | .bytes, .str, x, y => y = x
  | .bytes, .bytes, x, y => y = x
  | .runes, .runes, x, y => y = x
  -- UTF-8, in both directions
  | .str, .runes, x, y => ∀ cs : List Char, x = cs.flatMap String.utf8EncodeChar → y = cs.map (fun c => (c.toNat : Int))
  | .runes, .str, x, y => ∀ cs : List Char, x = cs.map (fun c => (c.toNat : Int)) → y = cs.flatMap String.utf8EncodeChar
  | _, _, _, _ => False

/-- The types between which everything can be converted. -/
def Basic (T : B) : Bool := match T with
  | .bytes => false
  | .runes => false
  | _ => true

/-- The pairs with a converter. -/
def Has (T R : B) : Bool := (Basic T && Basic R) || (T == .string && R == .bytes) || (T == .bytes && R == .string) ||
  (T == .string && R == .runes) || (T == .runes && R == .string) || (T == .bytes && R == .bytes) || (T == .runes && R == .runes)

/-! ## The registry -/

/-- The last operation for a pair of types. -/
def lastOp {U : Univ} (h : List (Op U)) (T R : U.Ty) : Option (Op U) := h.reverse.find? (fun o => decide (o.src = T) && decide (o.dst = R))

def entryOf {U : Univ} : Op U → Option (Entry U)
  | .reg T R f => some ⟨T, R, f⟩
  | .unreg _ _ => none

theorem key_inj {U : Univ} {T T' : U.Ty} (hT : U.iface T = false) (h : key U T = key U T') : T = T' := by
  unfold key at h
  rw [hT] at h
  cases hT' : U.iface T' <;> simp [hT'] at h
  exact h

theorem look_lastOp {U : Univ} (h : List (Op U)) (T R : U.Ty) (hT : U.iface T = false) (hR : U.iface R = false) :
    look (run h) (key U T) (key U R) = (lastOp h T R).bind entryOf := by
  induction h using List.reverseRecOn with
  | nil => rfl
  | append_singleton h o ih =>
    rw [run_snoc]
    unfold lastOp
    rw [List.reverse_append, List.reverse_singleton, List.singleton_append, List.find?_cons]
    by_cases hm : o.src = T ∧ o.dst = R
    · obtain ⟨rfl, rfl⟩ := hm
      simp only [decide_true, Bool.and_self, Option.bind_some]
      cases o with
      | reg T' R' f => rw [Op.apply, look_register]; exact if_pos ⟨rfl, rfl⟩
      | unreg T' R' => rw [Op.apply, look_unregister]; exact if_pos ⟨rfl, rfl⟩
    · have : (decide (o.src = T) && decide (o.dst = R)) = false := by
        rw [Bool.eq_false_iff, ne_eq, Bool.and_eq_true, decide_eq_true_eq, decide_eq_true_eq]; exact hm
      rw [this]
      simp only
      rw [look_other, ih]
      · rfl
      · rintro ⟨h1, h2⟩
        exact hm ⟨(key_inj hT h1).symm, (key_inj hR h2).symm⟩

inductive Cls where
  | sint | uint | flt | str | bool | bytes | runes

def cls : B → Cls
  | .int8 | .int16 | .int32 | .int64 | .int => .sint
  | .uint8 | .uint16 | .uint32 | .uint64 | .uint => .uint
  | .float32 | .float64 => .flt
  | .string => .str
  | .bool => .bool
  | .bytes => .bytes
  | .runes => .runes

/-- The converter of a pair. -/
def conv1 (E : Env) (T R : B) : Option (Val E T → Val E R) :=
  match T, R with
  | .string, .string => some (stringToString E)
  | .string, .bool => some (stringToBool E)
  | .string, .bytes => some (stringToBytes E)
  | .string, .runes => some (stringToRunes E)
  | .bytes, .string => some (bytesToString E)
  | .bytes, .bytes => some (bytesToBytes E)
  | .runes, .string => some (runesToString E)
  | .runes, .runes => some (runesToRunes E)
  | .bool, .string => some (boolToString E)
  | .bool, .bool => some (boolToBool E)
  | .string, R =>
    match cls R with
    | .flt => stringToFloat E R
    | .sint => stringToInteger E R
    | _ => stringToUinteger E R
  | .bool, R =>
    match cls R with
    | .flt => boolToFloat E R
    | _ => boolToInteger E R
  | T, .string =>
    match cls T with
    | .flt => floatToString E T
    | .sint => intToString E T
    | _ => uintToString E T
  | T, .bool =>
    match cls T with
    | .flt => floatToBool E T
    | _ => intToBool E T
  | T, R => integerToInteger E T R

def nums : List B := [.int8, .int16, .int32, .int64, .int, .uint8, .uint16, .uint32, .uint64, .uint, .float32, .float64]

def table : List (B × B) := nums.flatMap (fun T => nums.map (fun R => (T, R))) ++ nums.map (fun R => (.string, R)) ++
  nums.map (fun T => (T, .string)) ++ nums.map (fun R => (.bool, R)) ++ [(.bool, .string)] ++ nums.map (fun T => (T, .bool)) ++
  [(.string, .bool), (.string, .string), (.bool, .bool), (.string, .bytes), (.bytes, .string), (.bytes, .bytes),
    (.string, .runes), (.runes, .string), (.runes, .runes)]

set_option maxRecDepth 8000 in
theorem init_eq (E : Env) : init E = table.map (fun p => reg E p.1 p.2 (conv1 E p.1 p.2)) := rfl

theorem table_find (T R : B) : table.reverse.find? (fun p => decide (p.1 = T) && decide (p.2 = R)) = if Has T R then some (T, R) else none := by
  cases T <;> cases R <;> rfl

theorem pred_eq (E : Env) (T R : B) (T' R' : (univ E).Ty) (h1 : T' = ty E T) (h2 : R' = ty E R) :
    ((fun o : Op (univ E) => decide (o.src = T') && decide (o.dst = R')) ∘ fun p : B × B => reg E p.1 p.2 (conv1 E p.1 p.2)) =
      fun p => decide (p.1 = T) && decide (p.2 = R) := by
  funext p
  rw [Bool.eq_iff_iff]
  simp only [Function.comp, reg, Op.src, Op.dst, Bool.and_eq_true, decide_eq_true_eq]
  rw [h1, h2]
  constructor
  · rintro ⟨g1, g2⟩; exact ⟨Sum.inl.inj (of_decide_eq_true g1), Sum.inl.inj (of_decide_eq_true g2)⟩
  · rintro ⟨rfl, rfl⟩; exact ⟨decide_eq_true rfl, decide_eq_true rfl⟩

theorem lastOp_init (E : Env) (T R : B) : lastOp (init E) (ty E T) (ty E R) = if Has T R then some (reg E T R (conv1 E T R)) else none := by
  unfold lastOp
  rw [init_eq, ← List.map_reverse, List.find?_map, pred_eq E T R _ _ rfl rfl, table_find]
  split <;> rfl

/-! ## What the converters do -/

def GoKind : Kind → Prop
  | .int t => t.IsGo
  | .flt F => F.IsGo
  | _ => True

theorem goKind (E : Env) (T : B) : GoKind (kind E T) := by
  have hb : ∀ s, IntTy.IsGo ⟨s, E.bits⟩ := fun s => by
    rcases E.hbits with h | h
    · exact .inr (.inr (.inl h))
    · exact .inr (.inr (.inr h))
  cases T <;> first
    | exact trivial
    | exact hb _
    | exact .inl rfl
    | exact .inr rfl
    | exact .inr (.inl rfl)
    | exact .inr (.inr (.inl rfl))
    | exact .inr (.inr (.inr rfl))

theorem abs_lt_of_inTy {t : IntTy} (ht : t.IsGo) {x : Int} (hx : InTy t x) : |(x : ℚ)| < 2 ^ 64 := by
  have hg := go_bits ht
  have h2 : (2 : Int) ^ t.bits = 2 * 2 ^ (t.bits - 1) := by rw [← pow_succ']; congr 1; omega
  have h1 : (2 : Int) ^ t.bits ≤ 2 ^ 64 := pow_le_pow_right₀ (by norm_num) hg.2
  have h3 : (0 : Int) < 2 ^ (t.bits - 1) := by positivity
  have : |x| < 2 ^ 64 := by
    unfold InTy at hx
    rw [abs_lt]
    split at hx <;> omega
  have h4 : ((|x| : Int) : ℚ) < ((2 ^ 64 : Int) : ℚ) := by exact_mod_cast this
  push_cast at h4
  exact h4

theorem means_num (E : Env) : ∀ (k k' : Kind), GoKind k → GoKind k' → ∀ f, numConv E k k' = some f → ∀ x, Valid k x → Means E k k' x (f x) := by
  intro k k' hk hk' f hf x hx
  cases k <;> cases k' <;> first | (cases hf; done) | cases hf
  · rename_i t r
    have := C66_congruent t r hk' x
    exact ⟨this.1, this.2.1⟩
  · rename_i t F
    exact C86_nearest F hk' x (abs_lt_of_inTy hk hx)
  · rename_i F r
    intro n q z hxq hz h1 h2 h3 h4
    subst hxq
    exact C86_truncates r (E.impl r) n q z hz h1 h2 h3 h4
  · rename_i F F'
    refine ⟨fun h => by subst h; rfl, fun n h => by subst h; rfl, fun n q h => ?_⟩
    subst h
    exact toFlt_nearest hk' n (mag_nonneg hx)

theorem means_int_str (E : Env) : ∀ k, GoKind k → ∀ f, (kIntToString k = some f ∨ kUintToString k = some f) → ∀ x, Valid k x → Means E k .str x (f x) := by
  intro k hk f hf x hx
  rcases hf with hf | hf
  · cases k with
    | int t =>
      cases hs : t.signed
      · simp only [kIntToString, hs] at hf; exact nomatch hf
      · simp only [kIntToString, hs, if_true] at hf
        cases hf
        exact (C64_signed_round_trip t hk hs x hx).1
    | _ => exact nomatch hf
  · cases k with
    | int t =>
      cases hs : t.signed
      · simp only [kUintToString, hs] at hf
        cases hf
        exact (C64_unsigned_round_trip t hk hs x hx).1
      · simp only [kUintToString, hs, if_true] at hf; exact nomatch hf
    | _ => exact nomatch hf

theorem parse_format (S : Strconv) (x : Flt) (hx : IsFlt f64 x) : S.parse (S.format x) = x := by
  cases x with
  | nan => rw [S.format_nan, S.parse_nan]
  | inf n => rw [S.format_inf, S.parse_inf]
  | fin n q =>
    obtain ⟨q', g1, g2⟩ := S.format_fin n q hx
    rw [S.parse_dec _ _ _ g1, g2]

theorem means_flt_str (E : Env) : ∀ k, GoKind k → ∀ f, kFloatToString E k = some f → ∀ x, Valid k x → Means E k .str x (f x) := by
  intro k hk f hf x hx
  cases k <;> first | (cases hf; done) | cases hf
  rename_i F
  have h64 : IsFlt f64 x ∧ floatToFloat f64 x = x := by
    have h : IsFlt f64 x := by
      rcases hk with rfl | rfl
      · exact hx
      · cases x with
        | nan => trivial
        | inf n => trivial
        | fin n q => exact mag_f32_f64 hx
    refine ⟨h, ?_⟩
    cases x with
    | nan => rfl
    | inf n => rfl
    | fin n q => exact toFlt_mag h
  show E.S.parse (ConvFloat.floatToString E.S F x) = x
  unfold ConvFloat.floatToString
  rw [h64.2]
  exact parse_format E.S x h64.1

theorem means_str_int (E : Env) : ∀ k, GoKind k → ∀ f, (kStringToInteger k = some f ∧ (∀ t, k = .int t → t.signed = true) ∨ kStringToUinteger k = some f) →
    ∀ x, Means E .str k x (f x) := by
  intro k hk f hf x
  rcases hf with ⟨hf, hs⟩ | hf
  · cases k with
    | int t =>
      have hs := hs t rfl
      cases hf
      intro v hc hv
      rw [(C64_signed_round_trip t hk hs v hv).2.1 x hc]
      exact (C64_signed_round_trip t hk hs v hv).2.2
    | _ => exact nomatch hf
  · cases k with
    | int t =>
      cases hs : t.signed
      · simp only [kStringToUinteger, hs] at hf
        cases hf
        intro v hc hv
        rw [(C64_unsigned_round_trip t hk hs v hv).2.1 x hc]
        exact (C64_unsigned_round_trip t hk hs v hv).2.2
      · simp only [kStringToUinteger, hs, if_true] at hf; exact nomatch hf
    | _ => exact nomatch hf

theorem means_str_flt (E : Env) : ∀ k, GoKind k → ∀ f, kStringToFloat E k = some f → ∀ x, Means E .str k x (f x) := by
  intro k hk f hf x
  cases k <;> first | (cases hf; done) | cases hf
  rename_i F
  intro n q hd hm
  have h64 : Mag f64 q := by
    rcases hk with rfl | rfl
    · exact hm
    · exact mag_f32_f64 hm
  unfold ConvFloat.stringToFloat
  rw [E.S.parse_dec _ _ _ (parseDec_eq hd), toFlt_mag h64]
  exact toFlt_mag hm

theorem means_bool_num (E : Env) : ∀ k, GoKind k → ∀ f, (kBoolToInteger k = some f ∨ kBoolToFloat k = some f) → ∀ x, Means E .bool k x (f x) := by
  intro k hk f hf x
  rcases hf with hf | hf
  · cases k <;> first | (cases hf; done) | cases hf
    rename_i t
    exact (C66_bool t hk x 0).2.1
  · cases k <;> first | (cases hf; done) | cases hf
    cases x
    · exact congrArg (Flt.fin false) (by norm_num [bit])
    · exact congrArg (Flt.fin false) (by norm_num [bit])

theorem floatToBool_false (x : Flt) : ConvFloat.floatToBool x = false ↔ x = .fin false 0 ∨ x = .fin true 0 := by
  cases x with
  | nan => simp [ConvFloat.floatToBool]
  | inf n => simp [ConvFloat.floatToBool]
  | fin n q => cases n <;> simp [ConvFloat.floatToBool]

theorem means_num_bool (E : Env) : ∀ k, GoKind k → ∀ f, (kIntToBool k = some f ∨ kFloatToBool k = some f) → ∀ x, Means E k .bool x (f x) := by
  intro k hk f hf x
  rcases hf with hf | hf
  · cases k <;> first | (cases hf; done) | cases hf
    rename_i t
    exact (C66_bool t hk true x).2.2.1
  · cases k <;> first | (cases hf; done) | cases hf
    exact floatToBool_false x

theorem means_utf8 (E : Env) : (∀ x, Means E .str .runes x (ConvUtf8.stringToRunes x)) ∧ (∀ x, Means E .runes .str x (ConvUtf8.runesToString x)) := by
  have h := C67_runes_round_trip
  refine ⟨fun x cs hx => ?_, fun x cs hx => ?_⟩
  · subst hx
    have := h.2.1 cs
    rw [h.1] at this
    exact this
  · subst hx
    exact h.1 cs

theorem conv1_means (E : Env) (T R : B) (h : Has T R = true) :
    ∃ f, conv1 E T R = some f ∧ ∀ x, Valid (kind E T) x → Means E (kind E T) (kind E R) x (f x) := by
  have gT := goKind E T
  have gR := goKind E R
  cases T <;> cases R <;> first
    | exact absurd h (by decide)
    | exact ⟨_, rfl, means_num E _ _ gT gR _ rfl⟩
    | exact ⟨_, rfl, means_int_str E _ gT _ (.inl rfl)⟩
    | exact ⟨_, rfl, means_int_str E _ gT _ (.inr rfl)⟩
    | exact ⟨_, rfl, means_flt_str E _ gT _ rfl⟩
    | exact ⟨_, rfl, fun x _ => means_str_int E _ gR _ (.inl ⟨rfl, fun t ht => by cases ht; rfl⟩) x⟩
    | exact ⟨_, rfl, fun x _ => means_str_int E _ gR _ (.inr rfl) x⟩
    | exact ⟨_, rfl, fun x _ => means_str_flt E _ gR _ rfl x⟩
    | exact ⟨_, rfl, fun x _ => means_bool_num E _ gR _ (.inl rfl) x⟩
    | exact ⟨_, rfl, fun x _ => means_bool_num E _ gR _ (.inr rfl) x⟩
    | exact ⟨_, rfl, fun x _ => means_num_bool E _ gT _ (.inl rfl) x⟩
    | exact ⟨_, rfl, fun x _ => means_num_bool E _ gT _ (.inr rfl) x⟩
    | exact ⟨_, rfl, fun x _ => (C66_string_bool x).1⟩
    | exact ⟨_, rfl, fun x _ => (means_utf8 E).1 x⟩
    | exact ⟨_, rfl, fun x _ => (means_utf8 E).2 x⟩
    | exact ⟨_, rfl, fun x _ => by cases x <;> rfl⟩

/-! ## C85 -/

theorem lastOp_append {U : Univ} (h h' : List (Op U)) (T R : U.Ty) (hn : ∀ o ∈ h', ¬ (o.src = T ∧ o.dst = R)) :
    lastOp (h ++ h') T R = lastOp h T R := by
  unfold lastOp
  rw [List.reverse_append, List.find?_append]
  have : h'.reverse.find? (fun o => decide (o.src = T) && decide (o.dst = R)) = none := by
    rw [List.find?_eq_none]
    intro o ho
    rw [Bool.and_eq_true, decide_eq_true_eq, decide_eq_true_eq]
    exact hn o (List.mem_reverse.1 ho)
  rw [this]; rfl

/-- C85: between the numeric types, strings and booleans there is a converter for every pair from the start, and for strings, bytes and
runes those one expects; each means what `Means` says, whatever a program registers or unregisters for other pairs of types (interface
types included). For no other pair of these types there is one. -/
theorem C85_builtin (E : Env) (h : List (Op (univ E))) (T R : B)
    (hn : ∀ o ∈ h, ¬ (o.src = ty E T ∧ o.dst = ty E R)) :
    exists' (U := univ E) (ty E T) (ty E R) (run (init E ++ h)) = Has T R ∧
    (Has T R = true → ∀ x, Valid (kind E T) x → ∃ y, Means E (kind E T) (kind E R) x y ∧
      into (U := univ E) (ty E T) (ty E R) (some (box E T x)) (run (init E ++ h)) = .ret (some (box E R y), true)) ∧
    (Has T R = false → ∃ z, IsZero (kind E R) z ∧ ∀ x, into (U := univ E) (ty E T) (ty E R) (some (box E T x)) (run (init E ++ h)) =
      .ret (some (box E R z), false)) := by
  have hl := look_lastOp (U := univ E) (init E ++ h) (ty E T) (ty E R) rfl rfl
  rw [lastOp_append _ _ _ _ hn, lastOp_init] at hl
  have hkT : ∀ x, typeOf (some (box E T x) : Value (univ E)) = key (univ E) (ty E T) := fun x => rfl
  refine ⟨?_, fun hh x hx => ?_, fun hh => ⟨kzero (kind E R), by cases kind E R <;> rfl, fun x => ?_⟩⟩
  · rw [ConvReg.exists_eq, hl]
    cases Has T R <;> rfl
  · obtain ⟨f, hf, hm⟩ := conv1_means E T R hh
    refine ⟨f x, hm x hx, ?_⟩
    rw [into_eq, hkT, hl, if_pos hh]
    simp only [Option.bind_some, reg, entryOf, hf, Option.map_some, and_self, if_true]
    simp [lift, box]
  · rw [into_eq, hkT, hl, hh]
    rfl

/-- The types between which everything can be converted. -/
theorem C85_all_basic (T R : B) (hT : T ≠ .bytes ∧ T ≠ .runes) (hR : R ≠ .bytes ∧ R ≠ .runes) : Has T R = true := by
  cases T <;> cases R <;> first | rfl | exact absurd rfl hT.1 | exact absurd rfl hT.2 | exact absurd rfl hR.1 | exact absurd rfl hR.2

/-- A program with one more concrete type and one interface type. -/
noncomputable def exE : Env where
  bits := 64
  hbits := .inr rfl
  S := exS
  impl := fun _ _ => 0
  Usr := Unit
  UVal := fun _ => Nat
  uzero := fun _ => 0
  Ifc := Unit

/-- A history that leaves int64 to bool alone: it registers bytes to a type of its own and unregisters an interface type. -/
example : let h : List (Op (univ exE)) := [.reg (ty exE .bytes) (.inr (.inl ())) none, .unreg (.inr (.inr ())) (ty exE .bool)]
    (∀ o ∈ h, ¬ (o.src = ty exE .int64 ∧ o.dst = ty exE .bool)) ∧ Valid (kind exE .int64) (1 : Int) := by
  refine ⟨?_, ?_⟩
  · intro o ho
    simp only [List.mem_cons, List.not_mem_nil, or_false] at ho
    rcases ho with rfl | rfl
    · rintro ⟨h, -⟩; exact absurd (Sum.inl.inj h) (by decide)
    · rintro ⟨h, -⟩; exact nomatch h
  · show InTy _ _
    unfold InTy; norm_num

end Verif.ConvInit
