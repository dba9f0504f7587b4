import Verif.Go.Basic

/-! Go strings as map keys: a string is its bytes, `<` compares byte by byte (the Go specification,
"Comparison operators": strings are compared lexically byte-wise). They obey the laws that the theorems
about ordered keys ask for, so those theorems apply to maps keyed by strings. -/
namespace Verif.Go

/-- A Go string. -/
structure Str where
  bytes : List UInt8
  deriving DecidableEq, Repr

instance : Inhabited Str := ⟨⟨[]⟩⟩

/-- Byte-wise lexical `<`. -/
def bytesLt : List UInt8 → List UInt8 → Bool
  | _, [] => false
  | [], _ :: _ => true
  | a :: as, b :: bs => if a < b then true else if b < a then false else bytesLt as bs

instance : GoOrdered Str := ⟨fun a b => bytesLt a.bytes b.bytes, fun a b => decide (a = b)⟩

theorem bytesLt_irrefl : ∀ a, bytesLt a a = false
  | [] => rfl
  | a :: as => by simp [bytesLt, bytesLt_irrefl as]

theorem bytesLt_trans : ∀ a b c, bytesLt a b = true → bytesLt b c = true → bytesLt a c = true
  | _, [], _ => by simp [bytesLt]
  | _, _ :: _, [] => by simp [bytesLt]
  | [], _ :: _, _ :: _ => by simp [bytesLt]
  | a :: as, b :: bs, c :: cs => by
    have ih := bytesLt_trans as bs cs
    simp only [bytesLt, UInt8.lt_iff_toNat_lt] at *
    repeat' split
    all_goals (intro h1 h2; first | rfl | omega | exact ih h1 h2 | (exact absurd h1 (by decide)) | (exact absurd h2 (by decide)))

theorem bytesLt_total : ∀ a b, bytesLt a b = true ∨ a = b ∨ bytesLt b a = true
  | [], [] => by simp
  | [], _ :: _ => by simp [bytesLt]
  | _ :: _, [] => by simp [bytesLt]
  | a :: as, b :: bs => by
    have ih := bytesLt_total as bs
    rcases Nat.lt_trichotomy a.toNat b.toNat with h | h | h
    · left; simp [bytesLt, UInt8.lt_iff_toNat_lt, h]
    · have : a = b := UInt8.toNat_inj.1 h
      subst this; simpa [bytesLt] using ih
    · right; right; simp [bytesLt, UInt8.lt_iff_toNat_lt, h]

instance : LawfulOrdered Str where
  eq_iff a b := by simp [GoOrdered.eq]
  irrefl a := bytesLt_irrefl a.bytes
  trans a b c := bytesLt_trans a.bytes b.bytes c.bytes
  total a b := by
    rcases bytesLt_total a.bytes b.bytes with h | h | h
    · exact .inl h
    · exact .inr (.inl (by cases a; cases b; simpa using h))
    · exact .inr (.inr h)

/-- The string of a literal in ASCII. -/
def str (s : String) : Str := ⟨s.toList.map fun c => c.toNat.toUInt8⟩

/-- A prefix comes first, and comparison goes by bytes, not by length. -/
example : lt (str "ab") (str "abc") = true ∧ lt (str "b") (str "abc") = false ∧ lt (str "Z") (str "a") = true := by
  decide

end Verif.Go
