import Verif.PassHash.Model
import Verif.ConvNum.Model
/-!
# Model of the texts and dispatchers in `cryptox/passhashx/internal/passhash.vstruct.go`

A text is a list of bytes. `fmt.Sprint` of a `[]byte` is modelled from `fmtBytes` of package `fmt`: brackets, and the decimal digits of each byte
with a space between. The accessors of a record are those of `Verif.PassHash`.
-/
namespace Verif.PassText
open Verif.Go Verif.PassHash

/-- An ASCII literal. -/
def lit (s : String) : List UInt8 := s.toList.map fun c => UInt8.ofNat c.toNat

/-- passhash.vstruct.go:31-43. -/
def paramString (e : UInt8) : List UInt8 :=
  match e.toNat with
  | 0 => lit "Argon2ID_High"
  | 1 => lit "Argon2ID_Low"
  | 2 => lit "Argon2ID_Mobile_High"
  | 3 => lit "Argon2ID_Mobile_Low"
  | _ => []

/-- A call of a Go function value that changes a state; a nil function panics. -/
def call {σ : Type} (f : Option (σ → Outcome σ)) (s : σ) : Outcome σ :=
  match f with
  | some f => f s
  | none => .panic

/-- passhash.vstruct.go:45-61, and :63-79 with the functions in a struct. -/
def dispatch {σ : Type} (e : UInt8) (onHigh onLow onMobileHigh onMobileLow : Option (σ → Outcome σ)) (s : σ) : Outcome σ :=
  match e.toNat with
  | 0 => call onHigh s
  | 1 => call onLow s
  | 2 => call onMobileHigh s
  | 3 => call onMobileLow s
  | _ => .ret s

/-- The loop of `fmtBytes`: from the second byte on there is a space before it. -/
def sprintLoop : List UInt8 → List UInt8
  | [] => []
  | b :: t => 32 :: ConvNum.digits b.toNat ++ sprintLoop t

/-- `fmt.Sprint` of a `[]byte`. -/
def sprint : List UInt8 → List UInt8
  | [] => lit "[]"
  | b :: t => lit "[" ++ ConvNum.digits b.toNat ++ sprintLoop t ++ lit "]"

/-- passhash.vstruct.go:159-175. -/
def text (s : Slice) : Outcome (List UInt8) := do
  let v ← validate s
  if v = false then .ret (lit "PasswordHash (invalid)")
  else do
    let b := lit "PasswordHash {"
    let b := b ++ lit "Param: "
    let p ← param s
    let b := b ++ paramString p
    let b := b ++ lit ", "
    let b := b ++ lit "Salt: "
    let slt ← salt s
    let b := b ++ sprint slt
    let b := b ++ lit ", "
    let b := b ++ lit "Hash: "
    let hsh ← hash s
    let b := b ++ sprint hsh
    let b := b ++ lit "}"
    .ret b

end Verif.PassText
