import Verif.Prelude
/-!
# Model of `cryptox/bcryptx/bcryptx.go`

Of `golang.org/x/crypto/bcrypt` (v0.4.0) the preparation of the key is modelled: a zero byte is appended to the password and the
key schedule of Blowfish takes 72 bytes from it, starting over at its end. The rest is any function of the cost, the salt and
those bytes. A record is its fields or malformed.
-/
namespace Verif.Bcrypt

abbrev Bytes := List UInt8

/-- Cost, salt and key to hash. -/
abbrev Core := Nat → Bytes → Bytes → Bytes

inductive Err where
  | tooLong
  | rand
  | malformed
  | mismatch
  deriving DecidableEq

/-- What is in the text "$2a$10$…". -/
inductive Record where
  | good (cost : Nat) (salt hash : Bytes)
  | bad

/-- The loop of `blowfish.ExpandKey` over the 18 words of four bytes, of the password with a zero byte. -/
def keyBytes (pw : Bytes) : Bytes := (List.range 72).map (fun i => (pw ++ [0]).getD (i % (pw.length + 1)) 0)

/-- `bcrypt.GenerateFromPassword`; `salt = none`: the random source failed. -/
def generate (core : Core) (salt : Option Bytes) (pw : Bytes) (cost : Nat) : Except Err Record :=
  match salt with
  | none => .error .rand
  | some s => .ok (.good cost s (core cost s (keyBytes pw)))

/-- `bcrypt.CompareHashAndPassword`. -/
def compare (core : Core) (r : Record) (pw : Bytes) : Option Err :=
  match r with
  | .bad => some .malformed
  | .good cost s h => if core cost s (keyBytes pw) = h then none else some .mismatch

/-- bcryptx.go:19-28. -/
def encrypt (core : Core) (salt : Option Bytes) (pw : Bytes) : Except Err Record :=
  if pw.length > 72 then .error .tooLong
  else generate core salt pw 10

/-- bcryptx.go:30-39. -/
def decrypt (core : Core) (enc : Record) (pw : Bytes) : Bool × Option Err :=
  match compare core enc pw with
  | some e => (false, some e)
  | none => (true, none)

end Verif.Bcrypt
