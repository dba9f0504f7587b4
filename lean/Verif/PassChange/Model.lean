import Verif.UserStore.Spec
import Verif.Conc.Sect
/-!
# Model of a request that changes a password

The server of `Verif.UserStore` has one more request: `if err := passhashx.Verify(old, m.Get(u)); err != nil { return err }; h, err := passhashx.Hash(new, level);
if err != nil { return err }; m.Set(u, h)`. It is a login and, if that is accepted, a new password: two calls on the map (syncmapx.go:17-22, 58-62), two
requests of `Verif.UserStore`, with the numbers `get` and `set`.
-/
namespace Verif.PassChange
open Verif.Conc Verif.PassHash Verif.UserStore
open Verif.SyncMap (Call Res)

variable {U : Type}

/-- A request to change a password, by the numbers of its two halves. -/
structure Change where
  get : Nat
  set : Nat

/-- The second half is begun only when the first has returned and the old password was accepted: passhash.go:82-108 (`Hash`) and syncmapx.go:58-62 (`Set`)
after passhash.go:118-142 (`Verify`). -/
def Change.Runs (K : Kdf) (req : Nat → Req U) (h : List (Event (Call U Bytes) (Res U Bytes))) (a : Change) (u : U) (old : Bytes) : Prop :=
  req a.get = .login u old ∧ (∃ new level rnd, req a.set = .setPassword u new level rnd) ∧
    ∀ c, .inv a.set c ∈ h → ∃ r, Before h (.ret a.get r) (.inv a.set c) ∧ answers K (req a.get) r = .ret none

/-! ## With a mutex of the program -/

/-- Local states of goroutines that change the password of one user: `give r` is to store the first record, `ask old new level rnd` is to change the password,
`put r` has had the old one accepted and has the record of the new one. -/
inductive Loc where
  | give (r : Bytes)
  | gave
  | ask (old new : Bytes) (level : Int) (rnd : Rand)
  | put (r : Bytes)
  | yes
  | no

open Verif.Go in
/-- What a change does with the record it got: passhash.go:118-142 (`Verify`), 82-108 (`Hash`). -/
def next (K : Kdf) (old new : Bytes) (level : Int) (rnd : Rand) (h : Bytes) : Loc :=
  match verify K old (.of h) with
  | .ret none => match hashPw K rnd new level with
    | .ret (.ok r) => .put r
    | _ => .no
  | _ => .no

/-- `mu.Lock(); defer mu.Unlock()` around the change, and around the first `Set`: syncmapx.go:17-22 (`Get`), 58-62 (`Set`). The map's own lock is always free
then. `Verif.Conc.Sect` interleaves the steps of the goroutines. -/
def changing (K : Kdf) (u : U) : Sect.Prog Loc (Call U Bytes) (Res U Bytes) where
  enters
    | .give _ => some true
    | .ask .. => some true
    | _ => none
  call
    | .give r => some (.set u r)
    | .ask .. => some (.get u)
    | .put r => some (.set u r)
    | _ => none
  resume
    | .give _, _ => .gave
    | .ask old new level rnd, .val h => next K old new level rnd h
    | .ask .., _ => .no    -- `Get` returns a value
    | .put _, _ => .yes
    | q, _ => q
  leave q := q

end Verif.PassChange
