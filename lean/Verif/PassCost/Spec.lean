import Verif.PassHash.Model
/-!
# What a function asks of the key derivation
-/
namespace Verif.PassCost
open Verif.PassHash

/-- The arguments of one call of `argon2.IDKey`. -/
structure Call where
  password : List UInt8
  salt : List UInt8
  time : Nat
  memory : Nat
  threads : Nat
  keyLen : Nat

/-- What it returns. -/
def Call.ask (c : Call) (K : Kdf) : List UInt8 := K c.password c.salt c.time c.memory c.threads c.keyLen

/-- The key derivation is asked this one question at most: nothing else about it makes a difference. -/
def AsksOnly {α : Type} (f : Kdf → α) (c : Call) : Prop := ∀ K K', c.ask K = c.ask K' → f K = f K'

/-- The cost of a call, in passes over memory (KiB): not so much that it could be used to bring a server down,
and not so little that passwords could be guessed cheaply. -/
structure Moderate (c : Call) : Prop where
  most : c.time * c.memory ≤ 1310720
  least : 122880 ≤ c.time * c.memory
  memory : c.memory ≤ 65536
  threads : 1 ≤ c.threads ∧ c.threads ≤ 4
  time : 1 ≤ c.time
  keyLen : c.keyLen = 32

end Verif.PassCost
