import Verif.UserStore.Model
import Verif.Conc.Lin
import Verif.PassHash.Spec
/-!
# Specification for C182: who can log in
-/
namespace Verif.UserStore
open Verif.Conc Verif.PassHash
open Verif.SyncMap (Call Res)

variable {U : Type}

/-- The goroutines make the calls that their requests need, and no others: call number `i` is made for the request `req i`. -/
def Serves (K : Kdf) (req : Nat → Req U) (h : List (Event (Call U Bytes) (Res U Bytes))) : Prop :=
  ∀ i c, .inv i c ∈ h → asks K (req i) = some c

/-- The request changes what is stored for `u`. -/
def Changes (u : U) : Req U → Prop
  | .setPassword u' _ _ _ => u' = u
  | .login _ _ => False
  | .remove u' => u' = u

/-- The change `p` may be the last one before the request `i`: it was called before `i` had returned, and no other change came after it and before `i`. -/
def MayBeLast (req : Nat → Req U) (h : List (Event (Call U Bytes) (Res U Bytes))) (u : U) (i p : Nat) : Prop :=
  Changes u (req p) ∧ (∃ c, .inv p c ∈ h) ∧ (∀ r c, ¬ Before h (.ret i r) (.inv p c)) ∧
    ∀ q, Changes u (req q) → ¬ ((∃ r c, Before h (.ret p r) (.inv q c)) ∧ ∃ r c, Before h (.ret q r) (.inv i c))

/-- Both passwords have the same key for the level and the salt drawn. -/
def SameKey (K : Kdf) (level : Int) (rnd : Rand) (pw pw' : Bytes) : Prop :=
  ∃ k, derive K (UInt8.ofNat (level - 1).toNat) pw (rnd 16).1 = some k ∧ derive K (UInt8.ofNat (level - 1).toNat) pw' (rnd 16).1 = some k

/-- The answer to a login with `pw` when the last change was this one: accepted exactly when the password has the key of the one that was set. -/
def Decides (K : Kdf) (pw : Bytes) : Req U → Option Err → Prop
  | .setPassword _ pw' level rnd, e => (SameKey K level rnd pw' pw → e = none) ∧ (¬ SameKey K level rnd pw' pw → e = some .hashMismatch)
  | .login _ _, _ => False
  | .remove _, e => e = some .invalidPassHash

/-- The random source fills the buffer it is given, which is what it is asked for: the buffer has 16 bytes. -/
def Fills (req : Nat → Req U) : Prop := ∀ p u pw level rnd, req p = .setPassword u pw level rnd → (rnd 16).1.length = 16

end Verif.UserStore
