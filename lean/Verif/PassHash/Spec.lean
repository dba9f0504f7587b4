import Verif.PassHash.Model
/-!
# The layout of a password hash record
-/
namespace Verif.PassHash

/-- A number as eight bytes, the lowest first. -/
def le64 (v : Nat) : List UInt8 := (List.range 8).map (fun k => UInt8.ofNat (v / 256 ^ k % 256))

/-- Algorithm, end of the salt, end of the hash, salt, hash. -/
def record (prm : UInt8) (slt hsh : List UInt8) : List UInt8 :=
  prm :: le64 (17 + slt.length) ++ le64 (17 + slt.length + hsh.length) ++ slt ++ hsh

/-- A record, perhaps followed by other bytes. -/
def IsRecord (bs : List UInt8) (prm : UInt8) (slt hsh : List UInt8) : Prop :=
  ∃ tail, bs = record prm slt hsh ++ tail ∧ 17 + slt.length + hsh.length < 2 ^ 64

/-- Argon2id's time, memory, threads and key length for the known algorithms. -/
def params : Nat → Option (Nat × Nat × Nat × Nat)
  | 0 => some (20, 65536, 4, 32)
  | 1 => some (32, 4096, 1, 32)
  | 2 => some (4, 37888, 1, 32)
  | 3 => some (8, 15360, 1, 32)
  | _ => none

/-- The key derived from a password, for a known algorithm. -/
def derive (K : Kdf) (prm : UInt8) (password slt : List UInt8) : Option (List UInt8) :=
  (params prm.toNat).map (fun (t, m, p, l) => K password slt t m p l)

/-! ## Base64, RFC 4648 section 5 -/

/-- The value of a character of the URL alphabet. -/
def sextet (c : UInt8) : Option Nat :=
  let n := c.toNat
  if 65 ≤ n ∧ n ≤ 90 then some (n - 65)
  else if 97 ≤ n ∧ n ≤ 122 then some (n - 97 + 26)
  else if 48 ≤ n ∧ n ≤ 57 then some (n - 48 + 52)
  else if n = 45 then some 62
  else if n = 95 then some 63
  else none

/-- The number whose digits are the bytes. -/
def num256 (b : List UInt8) : Nat := b.foldl (fun n x => n * 256 + x.toNat) 0

/-- The number whose digits are the values of the characters. -/
def num64 (s : List UInt8) : Nat := s.foldl (fun n c => n * 64 + (sextet c).getD 0) 0

end Verif.PassHash
