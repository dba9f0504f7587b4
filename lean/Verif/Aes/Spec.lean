import Verif.Aes.Model
/-!
# Counter mode, byte by byte
-/
namespace Verif.Aes

/-- The number written in the bytes, the highest first. -/
def num (b : Bytes) : Nat := b.foldl (fun n x => n * 256 + x.toNat) 0

/-- A number in so many bytes, the highest first. -/
def be : Nat → Nat → Bytes
  | 0, _ => []
  | w + 1, v => be w (v / 256) ++ [UInt8.ofNat (v % 256)]

/-- Data combined with the encrypted counter blocks `blk 0, blk 1, …`. -/
def IsCounterMode (C : Cipher) (k : Bytes) (blk : Nat → Bytes) (data out : Bytes) : Prop :=
  out.length = data.length ∧ ∀ n, n < data.length → out.getD n 0 = data.getD n 0 ^^^ (C.enc k (blk (n / 16))).getD (n % 16) 0

/-- The counter blocks of CTR: count up from the initial value, modulo 2^128. -/
def ctrBlock (iv : Bytes) (i : Nat) : Bytes := be 16 ((num iv + i) % 2 ^ 128)

/-- The counter blocks for the data of GCM: the nonce, then a number counting up from 2, modulo 2^32. -/
def gcmBlock (nonce : Bytes) (i : Nat) : Bytes := nonce ++ be 4 ((2 + i) % 2 ^ 32)

end Verif.Aes
