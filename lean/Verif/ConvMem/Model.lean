import Verif.Go.Slice
import Verif.ConvUtf8.Model
/-!
# `typex/convx/converters.go` over memory

The converters with slices on one side or both. Bytes and runes live in separate memories. A string is a value: nobody can
change it. A conversion from a string to a slice makes a new array, with any surplus capacity `g` (`rawbyteslice`,
`rawruneslice` round up to a size class).
-/
namespace Verif.ConvMem
open Verif.Go

structure Mem where
  bytes : Hp UInt8
  runes : Hp Int

/-- converters.go:79-81 `stringToBytes`. -/
def stringToBytes (m : Mem) (g : Nat) (s : List UInt8) : Mem × Sl :=
  ({ m with bytes := (m.bytes.alloc (ConvUtf8.stringToBytes s) g).1 }, (m.bytes.alloc (ConvUtf8.stringToBytes s) g).2)

/-- converters.go:83-85 `bytesToString`. -/
def bytesToString (m : Mem) (b : Sl) : List UInt8 := ConvUtf8.bytesToString (elems m.bytes b)

/-- converters.go:87-89 `bytesToBytes`. -/
def bytesToBytes (m : Mem) (b : Sl) : Mem × Sl := (m, b)

/-- converters.go:91-93 `stringToRunes`. -/
def stringToRunes (m : Mem) (g : Nat) (s : List UInt8) : Mem × Sl :=
  ({ m with runes := (m.runes.alloc (ConvUtf8.stringToRunes s) g).1 }, (m.runes.alloc (ConvUtf8.stringToRunes s) g).2)

/-- converters.go:95-97 `runesToString`. -/
def runesToString (m : Mem) (r : Sl) : List UInt8 := ConvUtf8.runesToString (elems m.runes r)

/-- converters.go:99-101 `runesToRunes`. -/
def runesToRunes (m : Mem) (r : Sl) : Mem × Sl := (m, r)

end Verif.ConvMem
