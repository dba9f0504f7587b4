import Verif.Prelude
import Verif.Go.Basic
/-!
# Model of `cryptox/aesx` (cbcx.go, ctrx.go, gcmx.go)

AES is any block cipher, SHA-256 and GHASH any functions, `crypto/rand` any source. The modes of `crypto/cipher` are
modelled from its documentation and source: CBC and CTR with 16-byte blocks, GCM with a 12-byte nonce and a 16-byte tag.
Data is a list of bytes; the results are fresh slices.
-/
namespace Verif.Aes
open Verif.Go

abbrev Bytes := List UInt8

/-- A block cipher with 16-byte blocks. -/
structure Cipher where
  enc : Bytes → Bytes → Bytes
  dec : Bytes → Bytes → Bytes
  enc_len : ∀ k b, b.length = 16 → (enc k b).length = 16
  dec_len : ∀ k b, b.length = 16 → (dec k b).length = 16
  dec_enc : ∀ k b, b.length = 16 → dec k (enc k b) = b

/-- What the package uses: the cipher, `sha256.Sum256`, GHASH (of the hash key and the ciphertext, without additional
data; 16 bytes). -/
structure Env where
  C : Cipher
  sha : Bytes → Bytes
  ghash : Bytes → Bytes → Bytes
  ghash_len : ∀ h c, (ghash h c).length = 16

/-- `rand.Read` of a slice of the given length: the content, or an error. It never reads less without an error. -/
structure Rand where
  read : Nat → Option Bytes
  len : ∀ n b, read n = some b → b.length = n

inductive Err where
  | rand
  | open
  deriving DecidableEq

def xorB (a b : Bytes) : Bytes := List.zipWith (fun x y => x ^^^ y) a b

/-! ## CBC, cbcx.go -/

/-- The loop of the CBC encrypter. -/
def cbcEnc (C : Cipher) (k : Bytes) (prev data : Bytes) : Bytes :=
  if 16 ≤ data.length then
    let c := C.enc k (xorB (data.take 16) prev)
    c ++ cbcEnc C k c (data.drop 16)
  else []
termination_by data.length
decreasing_by simp; omega

/-- The loop of the CBC decrypter (it runs from the end; the blocks do not depend on each other's results). -/
def cbcDec (C : Cipher) (k : Bytes) (prev data : Bytes) : Bytes :=
  if 16 ≤ data.length then
    xorB (C.dec k (data.take 16)) prev ++ cbcDec C k (data.take 16) (data.drop 16)
  else []
termination_by data.length
decreasing_by simp; omega

/-- `CryptBlocks` panics when the input is not a whole number of blocks; cbcx.go:10-24. -/
def encryptCBC (E : Env) (rnd : Rand) (data key : Bytes) : Outcome (Except Err Bytes) :=
  match rnd.read 16 with
  | none => .ret (.error .rand)
  | some iv =>
    if data.length % 16 ≠ 0 then .panic
    else .ret (.ok (iv ++ cbcEnc E.C (E.sha key) iv data))

/-- cbcx.go:26-38. `data[ivSize:]` panics when there are fewer than 16 bytes. -/
def decryptCBC (E : Env) (data key : Bytes) : Outcome (Except Err Bytes) :=
  if data.length < 16 then .panic
  else if (data.drop 16).length % 16 ≠ 0 then .panic
  else .ret (.ok (cbcDec E.C (E.sha key) (data.take 16) (data.drop 16)))

/-! ## CTR, ctrx.go -/

/-- Adding one to a number in bytes, the lowest first. -/
def incrLE : Bytes → Bytes
  | [] => []
  | b :: t => if b + 1 ≠ 0 then (b + 1) :: t else 0 :: incrLE t

/-- The counter is incremented from its last byte on. -/
def incr (ctr : Bytes) : Bytes := (incrLE ctr.reverse).reverse

/-- `XORKeyStream` of a fresh stream. -/
def ctrXor (C : Cipher) (k : Bytes) (ctr data : Bytes) : Bytes :=
  if data = [] then []
  else xorB (data.take 16) (C.enc k ctr) ++ ctrXor C k (incr ctr) (data.drop 16)
termination_by data.length
decreasing_by
  rename_i h
  have := List.length_pos_iff.2 h
  simp; omega

/-- ctrx.go:10-24. -/
def encryptCTR (E : Env) (rnd : Rand) (data key : Bytes) : Outcome (Except Err Bytes) :=
  match rnd.read 16 with
  | none => .ret (.error .rand)
  | some iv => .ret (.ok (iv ++ ctrXor E.C (E.sha key) iv data))

/-- ctrx.go:26-38. -/
def decryptCTR (E : Env) (data key : Bytes) : Outcome (Except Err Bytes) :=
  if data.length < 16 then .panic
  else .ret (.ok (ctrXor E.C (E.sha key) (data.take 16) (data.drop 16)))

/-! ## GCM, gcmx.go -/

/-- `gcmInc32`: the last four bytes only. -/
def incr32 (ctr : Bytes) : Bytes := ctr.take 12 ++ incr (ctr.drop 12)

/-- `counterCrypt`. -/
def gcmXor (C : Cipher) (k : Bytes) (ctr data : Bytes) : Bytes :=
  if data = [] then []
  else xorB (data.take 16) (C.enc k ctr) ++ gcmXor C k (incr32 ctr) (data.drop 16)
termination_by data.length
decreasing_by
  rename_i h
  have := List.length_pos_iff.2 h
  simp; omega

/-- `deriveCounter`, for a nonce of 12 bytes. -/
def counter0 (nonce : Bytes) : Bytes := nonce ++ [0, 0, 0, 1]

/-- The authentication tag: `tagMask` and `auth`. -/
def tag (E : Env) (k nonce ct : Bytes) : Bytes :=
  xorB (E.ghash (E.C.enc k (List.replicate 16 0)) ct) (E.C.enc k (counter0 nonce))

/-- The most bytes GCM takes. -/
def maxData : Nat := (2 ^ 32 - 2) * 16

/-- `Seal`, for a nonce of 12 bytes. -/
def aeadSeal (E : Env) (k nonce data : Bytes) : Outcome Bytes :=
  if data.length > maxData then .panic
  else
    let ct := gcmXor E.C k (incr32 (counter0 nonce)) data
    .ret (ct ++ tag E k nonce ct)

/-- `Open`, for a nonce of 12 bytes. -/
def aeadOpen (E : Env) (k nonce data : Bytes) : Except Err Bytes :=
  if data.length < 16 then .error .open
  else if data.length > maxData + 16 then .error .open
  else
    let ct := data.take (data.length - 16)
    if data.drop (data.length - 16) = tag E k nonce ct then .ok (gcmXor E.C k (incr32 (counter0 nonce)) ct)
    else .error .open

/-- gcmx.go:10-26. -/
def encryptGCM (E : Env) (rnd : Rand) (data key : Bytes) : Outcome (Except Err Bytes) :=
  match rnd.read 12 with
  | none => .ret (.error .rand)
  | some nonce => do
    let r ← aeadSeal E (E.sha key) nonce data
    .ret (.ok (nonce ++ r))

/-- gcmx.go:28-45. -/
def decryptGCM (E : Env) (data key : Bytes) : Outcome (Except Err Bytes) :=
  if data.length < 12 then .panic
  else .ret (aeadOpen E (E.sha key) (data.take 12) (data.drop 12))

end Verif.Aes
