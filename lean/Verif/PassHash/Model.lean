import Verif.Prelude
import Verif.Go.Basic
/-!
# Model of `cryptox/passhashx` (passhash.go, alg.go, internal/passhash.vstruct.go)

A password or salt is a list of bytes. Argon2 is any function; `crypto/rand` any source. Base64 is modelled from the documentation and
source of `encoding/base64` (`RawURLEncoding`: URL alphabet, no padding, not strict).
-/
namespace Verif.PassHash
open Verif.Go

/-! ## The record, passhash.vstruct.go -/

/-- A byte slice: the memory from its start to its capacity, and its length. -/
structure Slice where
  mem : List UInt8
  len : Nat
  ok : len ≤ mem.length

def Slice.of (l : List UInt8) : Slice := ⟨l, l.length, Nat.le_refl _⟩

/-- The bytes of a slice. -/
def Slice.bytes (s : Slice) : List UInt8 := s.mem.take s.len

/-- `s[i]`. -/
def Slice.at (s : Slice) (i : Nat) : Outcome UInt8 :=
  if i < s.len then .ret (s.mem.getD i 0) else .panic

/-- `s[a:b]`, which may reach up to the capacity. -/
def Slice.sub (s : Slice) (a b : Nat) : Outcome (List UInt8) :=
  if a ≤ b ∧ b ≤ s.mem.length then .ret ((s.mem.drop a).take (b - a)) else .panic

/-- The `uint64` in the eight bytes at `i`, passhash.vstruct.go:99-106 and the like. -/
def Slice.u64 (s : Slice) (i : Nat) : Outcome Nat := do
  let b0 ← s.at i
  let b1 ← s.at (i + 1)
  let b2 ← s.at (i + 2)
  let b3 ← s.at (i + 3)
  let b4 ← s.at (i + 4)
  let b5 ← s.at (i + 5)
  let b6 ← s.at (i + 6)
  let b7 ← s.at (i + 7)
  .ret (b0.toNat ||| b1.toNat <<< 8 ||| b2.toNat <<< 16 ||| b3.toNat <<< 24 ||| b4.toNat <<< 32 ||| b5.toNat <<< 40 |||
    b6.toNat <<< 48 ||| b7.toNat <<< 56)

/-- passhash.vstruct.go:92-94. -/
def param (s : Slice) : Outcome UInt8 := s.at 0

/-- passhash.vstruct.go:96-108. -/
def salt (s : Slice) : Outcome (List UInt8) := do
  let _ ← s.at 8
  let off1 ← s.u64 1
  s.sub 17 off1

/-- passhash.vstruct.go:110-129. -/
def hash (s : Slice) : Outcome (List UInt8) := do
  let _ ← s.at 16
  let off0 ← s.u64 1
  let off1 ← s.u64 9
  s.sub off0 off1

/-- passhash.vstruct.go:131-157. -/
def validate (s : Slice) : Outcome Bool :=
  if s.len < 17 then .ret false
  else do
    let _ ← s.at 16
    let off1 ← s.u64 1
    let off2 ← s.u64 9
    .ret (decide (17 ≤ off1 ∧ off1 ≤ off2 ∧ off2 ≤ s.len))

/-- `dst[i] = b`. -/
def store (dst : List UInt8) (i : Nat) (b : UInt8) : Outcome (List UInt8) :=
  if i < dst.length then .ret (dst.set i b) else .panic

/-- The eight stores of a `uint64`, passhash.vstruct.go:183-190 and 194-201. -/
def store64 (dst : List UInt8) (i v : Nat) : Outcome (List UInt8) := do
  let d ← store dst i (UInt8.ofNat v)
  let d ← store d (i + 1) (UInt8.ofNat (v >>> 8))
  let d ← store d (i + 2) (UInt8.ofNat (v >>> 16))
  let d ← store d (i + 3) (UInt8.ofNat (v >>> 24))
  let d ← store d (i + 4) (UInt8.ofNat (v >>> 32))
  let d ← store d (i + 5) (UInt8.ofNat (v >>> 40))
  let d ← store d (i + 6) (UInt8.ofNat (v >>> 48))
  store d (i + 7) (UInt8.ofNat (v >>> 56))

/-- `copy(dst[a:b], src)`. The capacity of `dst` is its length. -/
def copy (dst : List UInt8) (a b : Nat) (src : List UInt8) : Outcome (List UInt8) :=
  if a ≤ b ∧ b ≤ dst.length then
    .ret (dst.take a ++ src.take (b - a) ++ dst.drop (a + min (b - a) src.length))
  else .panic

/-- passhash.vstruct.go:177-204. -/
def serialize (dst : List UInt8) (prm : UInt8) (slt hsh : List UInt8) : Outcome (List UInt8) := do
  let d ← if 16 < dst.length then .ret dst else .panic
  let d ← store d 0 prm
  let index := 17
  let tmp1 := (slt.length + index) % 2 ^ 64
  let d ← store64 d 1 tmp1
  let d ← copy d index tmp1 slt
  let index := (index + slt.length) % 2 ^ 64
  let tmp2 := (hsh.length + index) % 2 ^ 64
  let d ← store64 d 9 tmp2
  copy d index tmp2 hsh

/-- passhash.vstruct.go:206-211. `make` panics when the size is not an `int`. -/
def newRecord (prm : UInt8) (slt hsh : List UInt8) : Outcome (List UInt8) :=
  let size := 17 + slt.length + hsh.length
  if size < 2 ^ 63 then serialize (List.replicate size 0) prm slt hsh else .panic

/-! ## Hashing and verifying, passhash.go -/

inductive Err where
  | invalidPassHash
  | unknownAlgorithm
  | hashMismatch
  | readSaltFailed
  | invalidSecurityLevel
  | corruptInput   -- of `encoding/base64`
  deriving DecidableEq

/-- `argon2.IDKey`: of password, salt, time, memory, threads and key length. -/
abbrev Kdf := List UInt8 → List UInt8 → Nat → Nat → Nat → Nat → List UInt8

/-- `argon2.IDKey` panics when `time` or `threads` is 0. -/
def idKey (K : Kdf) (password slt : List UInt8) (time memory threads keyLen : Nat) : Outcome (List UInt8) :=
  if time < 1 ∨ threads < 1 then .panic else .ret (K password slt time memory threads keyLen)

/-- passhash.go:33-45. -/
def saltLen (prm : UInt8) : Nat := if prm.toNat < 4 then [16, 16, 16, 16].getD prm.toNat 0 else 16

/-- passhash.go:47-59. -/
def hashLen (prm : UInt8) : Nat := if prm.toNat < 4 then [32, 32, 32, 32].getD prm.toNat 0 else 32

/-- passhash.go:61-66 and alg.go:8-50, an element of `alg_arr`; `none`: the index is out of range. -/
def alg (K : Kdf) (prm : UInt8) : Option (List UInt8 → List UInt8 → Outcome (List UInt8)) :=
  match prm.toNat with
  | 0 => some fun p s => idKey K p s 20 (64 * 1024) 4 (hashLen 0)
  | 1 => some fun p s => idKey K p s 32 (4 * 1024) 1 (hashLen 1)
  | 2 => some fun p s => idKey K p s 4 (37 * 1024) 1 (hashLen 2)
  | 3 => some fun p s => idKey K p s 8 (15 * 1024) 1 (hashLen 3)
  | _ => none

/-- passhash.go:68-80. -/
def securityLevel (sl : Int) : UInt8 × Bool :=
  if sl = 1 then (0, true) else if sl = 2 then (1, true) else if sl = 3 then (2, true) else if sl = 4 then (3, true) else (0, false)

/-- A call of `rand.Read` on a slice of the given length: the content of the slice, the count and whether an error was
returned. -/
abbrev Rand := Nat → List UInt8 × Nat × Bool

/-- passhash.go:82-108. -/
def hashPw (K : Kdf) (rnd : Rand) (password : List UInt8) (sl : Int) : Outcome (Except Err (List UInt8)) :=
  match securityLevel sl with
  | (_, false) => .ret (.error .invalidSecurityLevel)
  | (prm, true) =>
    match rnd (saltLen prm) with
    | (slt, n, err) =>
      if err ∨ n ≠ saltLen prm then .ret (.error .readSaltFailed)
      else if prm.toNat < 4 then
        match alg K prm with
        | none => .panic
        | some f => do
          let h ← f password slt
          let r ← newRecord prm slt h
          .ret (.ok r)
      else .ret (.error .unknownAlgorithm)

/-- `subtle.ConstantTimeCompare(x, y) == 1`: 0 when the lengths differ, otherwise the bytes are or-ed together
after exclusive or. -/
def constantTimeEq (x y : List UInt8) : Bool :=
  if x.length ≠ y.length then false else (List.zipWith (fun a b => a ^^^ b) x y).foldl (fun v b => v ||| b) 0 == 0

/-- passhash.go:118-142. `none`: a nil error. -/
def verify (K : Kdf) (password : List UInt8) (phash : Slice) : Outcome (Option Err) := do
  let v ← validate phash
  if v = false then .ret (some .invalidPassHash)
  else
    let prm ← param phash
    if prm.toNat < 4 then
      match alg K prm with
      | some f => do
        let slt ← salt phash
        let h ← f password slt
        let h' ← hash phash
        if constantTimeEq h h' then .ret none else .ret (some .hashMismatch)
      | none => .ret (some .unknownAlgorithm)
    else .ret (some .unknownAlgorithm)

/-! ## Base64 -/

/-- The URL alphabet. -/
def alphabet : List Char := "ABCDEFGHIJKLMNOPQRSTUVWXYZabcdefghijklmnopqrstuvwxyz0123456789-_".toList

/-- The character for six bits. -/
def encChar (v : Nat) : UInt8 := UInt8.ofNat (alphabet.getD (v % 64) 'A').toNat

/-- `RawURLEncoding.EncodeToString`: three bytes at a time. -/
def encode64 : List UInt8 → List UInt8
  | a :: b :: c :: t =>
    let v := a.toNat * 65536 + b.toNat * 256 + c.toNat
    encChar (v / 262144) :: encChar (v / 4096) :: encChar (v / 64) :: encChar v :: encode64 t
  | [a, b] =>
    let v := a.toNat * 65536 + b.toNat * 256
    [encChar (v / 262144), encChar (v / 4096), encChar (v / 64)]
  | [a] =>
    let v := a.toNat * 65536
    [encChar (v / 262144), encChar (v / 4096)]
  | [] => []

/-- The decoding table. -/
def decChar (c : UInt8) : Option Nat := (alphabet.map (fun x => UInt8.ofNat x.toNat)).idxOf? c

/-- Characters to six-bit values; `none`: some character is not in the alphabet. -/
def decChars : List UInt8 → Option (List Nat)
  | [] => some []
  | c :: t =>
    match decChar c, decChars t with
    | some v, some vs => some (v :: vs)
    | _, _ => none

/-- Four values at a time; the bits left over at the end are ignored, a single value at the end is an error. -/
def assemble : List Nat → Option (List UInt8)
  | a :: b :: c :: d :: t =>
    let v := a * 262144 + b * 4096 + c * 64 + d
    match assemble t with
    | some r => some (UInt8.ofNat (v / 65536) :: UInt8.ofNat (v / 256) :: UInt8.ofNat v :: r)
    | none => none
  | [a, b, c] =>
    let v := a * 262144 + b * 4096 + c * 64
    some [UInt8.ofNat (v / 65536), UInt8.ofNat (v / 256)]
  | [a, b] =>
    let v := a * 262144 + b * 4096
    some [UInt8.ofNat (v / 65536)]
  | [_] => none
  | [] => some []

/-- `RawURLEncoding.DecodeString`: carriage returns and newlines are skipped. -/
def decode64 (s : List UInt8) : Option (List UInt8) :=
  match decChars (s.filter (fun c => c ≠ 10 ∧ c ≠ 13)) with
  | some vs => assemble vs
  | none => none

/-- passhash.go:110-116. -/
def hashBase64 (K : Kdf) (rnd : Rand) (password : List UInt8) (sl : Int) : Outcome (Except Err (List UInt8)) := do
  let r ← hashPw K rnd password sl
  match r with
  | .error e => .ret (.error e)
  | .ok h => .ret (.ok (encode64 h))

/-- passhash.go:144-150. -/
def verifyBase64 (K : Kdf) (password : List UInt8) (phash : List UInt8) : Outcome (Option Err) :=
  match decode64 phash with
  | none => .ret (some .corruptInput)
  | some h => verify K password (.of h)

end Verif.PassHash
