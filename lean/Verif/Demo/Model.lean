import Verif.ConvInit.Model
/-!
# Model of `test/main.go`: the example program

One goroutine, so the lock of the registry does not matter. `fmt.Println` is modelled for the types the program prints.
-/
namespace Verif.Demo
open Verif.Go Verif.ConvNum Verif.ConvFloat Verif.ConvReg Verif.ConvInit

/-- test/main.go:11 `type HexString string`: the one type of the program that init.go does not name. Width of `int`, `strconv`
and the conversions of floats that do not fit are left open. -/
def env (bits : Nat) (hb : bits = 32 ∨ bits = 64) (S : Strconv) (impl : IntTy → Flt → Int) : Env where
  bits := bits
  hbits := hb
  S := S
  impl := impl
  Usr := Unit
  UVal := fun _ => List UInt8
  uzero := fun _ => []
  Ifc := Empty

variable {bits : Nat} {hb : bits = 32 ∨ bits = 64} {S : Strconv} {impl : IntTy → Flt → Int}

local notation "E" => env bits hb S impl

/-- The type `HexString`. -/
def tHex : (univ (env bits hb S impl)).Ty := .inr (.inl ())

/-- A value of the type `HexString`. -/
def hexStr (s : List UInt8) : (univ (env bits hb S impl)).Dyn := .inr ⟨(), s⟩

/-- encoding/hex `hextable`. -/
def hextable : List UInt8 := ascii "0123456789abcdef"

/-- encoding/hex `EncodeToString`: for each byte the digit of `v >> 4` and of `v & 0x0f`. -/
def encodeToString (b : List UInt8) : List UInt8 :=
  b.flatMap fun (v : UInt8) => [hextable.getD (v >>> (4 : UInt8)).toNat 0, hextable.getD (v &&& (15 : UInt8)).toNat 0]

/-- test/main.go:18-20, the function registered. -/
def toHex : Value (univ (env bits hb S impl)) → Value (univ (env bits hb S impl))
  | some (.inl ⟨.bytes, b⟩) => some (hexStr (encodeToString b))
  | _ => none

/-- The registry at the start of `main`: init.go has run. -/
def reg0 : Reg (univ (env bits hb S impl)) := run (init (env bits hb S impl))

/-- test/main.go:18-20. -/
def reg1 : Reg (univ (env bits hb S impl)) := register (ty _ .bytes) tHex (some toHex) reg0

/-- test/main.go:13-28, with `buf` what `rand.Read` left in the 32 bytes (line 23): the arguments of the calls of `fmt.Println`. -/
def main (buf : List UInt8) : Outcome (List (List (Value (univ (env bits hb S impl))))) :=
  (intoOr (U := univ E) (ty E .int64) (ty E .string) (some (box E .int64 (123456 : Int))) (some (box E .string [])) reg0).bind fun l1 =>
  (intoOr (U := univ E) (ty E .bool) (ty E .string) (some (box E .bool true)) (some (box E .string [])) reg0).bind fun l2 =>
  (intoOr (U := univ E) (ty E .string) (ty E .int32) (some (box E .string (ascii "5678"))) (some (box E .int32 (0 : Int))) reg0).bind fun l3 =>
  (intoOr (U := univ E) (ty E .bytes) tHex (some (box E .bytes buf)) (some (hexStr [])) reg1).bind fun l4 =>
  (into (U := univ E) (ty E .int64) (ty E .bool) (some (box E .int64 (1 : Int))) reg1).bind fun l5 =>
  .ret [[l1], [l2], [l3], [l4], [l5.1, some (box E .bool l5.2)]]

/-- What `fmt.Println` writes for a value of the types `string`, `HexString`, `int32` and `bool`; `none`: not modelled. -/
def text : Value (univ (env bits hb S impl)) → Option (List UInt8)
  | some (.inl ⟨.string, s⟩) => some s
  | some (.inl ⟨.int32, (i : Int)⟩) => some (formatInt i)
  | some (.inl ⟨.bool, (b : Bool)⟩) => some (boolToString b)
  | some (.inr ⟨_, s⟩) => some s
  | _ => none

/-- `fmt.Println`: blanks between the values and a newline. -/
def line (vs : List (Value (univ (env bits hb S impl)))) : Option (List UInt8) :=
  (vs.mapM text).map fun ts => (List.intersperse [32] ts).flatten ++ [10]

/-- All that is written. -/
def output (buf : List UInt8) : Outcome (Option (List UInt8)) :=
  (main (bits := bits) (hb := hb) (S := S) (impl := impl) buf).bind fun ls => .ret ((ls.mapM line).map List.flatten)

end Verif.Demo
