import Verif.SyncKey.Model
import Verif.PassHash.Model
/-!
# Model of a program that keeps password records in a concurrent map

A server answers requests in goroutines of their own, which share a `syncmapx.Map` from users to records of `passhashx`. A new password is hashed
before the map is locked, and a record is verified after the map is unlocked; each request makes at most one call on the map. The calls on the map
with their locks are those of `Verif.SyncKey` (syncmapx.go:6-74).
-/
namespace Verif.UserStore
open Verif.Go Verif.PassHash
open Verif.SyncMap (Call Res)

variable {U : Type}

/-- The bytes of a record. The slice that `Hash` returned is not changed by the program. -/
abbrev Bytes := List UInt8

/-- The requests. For each new password there is what the random source delivers then. -/
inductive Req (U : Type) where
  | setPassword (u : U) (pw : Bytes) (level : Int) (rnd : Rand)
  | login (u : U) (pw : Bytes)
  | remove (u : U)

/-- The call on the map that a request makes: `h, err := passhashx.Hash(pw, level); if err != nil { return err }; m.Set(u, h)`, `h := m.Get(u)` and
`m.Delete(u)`. passhash.go:82-108 (`Hash`), syncmapx.go:17-22 (`Get`), 58-68 (`Set`, `Delete`). -/
def asks (K : Kdf) : Req U → Option (Call U Bytes)
  | .setPassword u pw level rnd => match hashPw K rnd pw level with
    | .ret (.ok h) => some (.set u h)
    | _ => none
  | .login u _ => some (.get u)
  | .remove u => some (.delete u)

/-- What the request answers: `return passhashx.Verify(pw, h)`. passhash.go:118-142. -/
def answers (K : Kdf) : Req U → Res U Bytes → Outcome (Option Err)
  | .login _ pw, .val h => verify K pw (.of h)
  | _, _ => .ret none

end Verif.UserStore
