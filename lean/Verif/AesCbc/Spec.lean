import Verif.Aes.Model
/-!
# Changed CBC messages, block by block
-/
namespace Verif.AesCbc
open Verif.Aes

/-- Block `i` of 16 bytes. -/
def blk (x : Bytes) (i : Nat) : Bytes := (x.drop (16 * i)).take 16

/-- A message of the form the package writes: the IV and whole blocks. -/
def IsMessage (x : Bytes) : Prop := 16 ≤ x.length ∧ x.length % 16 = 0

end Verif.AesCbc
