/-
Model of /repo/include/scalar25519.hpp, of `Scalar::operator%=` (/repo/src/25519/curve25519.cpp)
and of the byte conversions of /repo/include/merlin.hpp, /repo/include/algebra.hpp and
/repo/include/utils.hpp.

A `CRV25519::Scalar` is its array of 32 bytes.  The libsodium functions on scalars are modelled by
their contract on the number the bytes hold (arithmetic modulo `P`, result below `P`).
-/
import Verif.Model.Transcript
import Verif.Model.RegevEnc

namespace Verif.Sc
open Verif

/-- The group order, curve25519.cpp:76 (the same number as `GlobalKey::P`). -/
abbrev P : ℕ := Regev.P

/-- `NTL::ZZFromBytes(buf,len)` (NTL library): little endian. -/
def leVal : Bytes → ℕ
  | [] => 0
  | b :: bs => b.toNat + 256 * leVal bs

/-- `NTL::BytesFromZZ(buf,a,len)` (NTL library): the low `len` bytes of `|a|`, little endian,
padded with zeros. -/
def zzBytes (len : ℕ) (a : ℤ) : Bytes := bytesFromIntLoop len a.natAbs

/-- `crypto_core_ed25519_scalar_negate` (libsodium). -/
def negateBytes (b : Bytes) : Bytes := zzBytes 32 (((P - leVal b % P) % P : ℕ) : ℤ)

/-- `Scalar::setInteger(long)`, scalar25519.hpp:129-143.  Negating the most negative `long` is
undefined; the loop writes 8 bytes over the zeroed array. -/
def setInteger (n : ℤ) : Res Bytes :=
  if n = -2 ^ 63 then .ub
  else
    let m := if n < 0 then -n else n
    let b := bytesFromIntLoop 8 m.toNat ++ List.replicate 24 0
    .ok (if n < 0 then negateBytes b else b)

/-- `Scalar::operator%=`, curve25519.cpp:75-89.  `P/2` is rounded down; NTL's `%` has the sign of
the (here positive) divisor and throws on zero. -/
def modAssign (self other : Bytes) : Res Bytes :=
  let x : ℤ := leVal self
  let y : ℤ := leVal other
  let x := if x ≥ (P : ℤ) / 2 then x - P else x
  let y := if y ≥ (P : ℤ) / 2 then |y - P| else y
  if y = 0 then .throw
  else
    let x := x.fmod y
    let x := if x > y / 2 then P + x - y else x
    .ok (zzBytes 32 x)

/-- `ZeroOneScalar::operator()`, scalar25519.hpp:173-184, on the 32 bytes at `data`; `r` is
`randombytes_random()`. -/
def zeroOne (r : ℕ) (data : Bytes) : Bytes :=
  if r % 2 ≠ 0 then
    let data := data.set 0 1
    if r / 2 % 2 ≠ 0 then negateBytes data else data
  else data

/-- `BoundedSizeScalar`, scalar25519.hpp:189-205. -/
structure Bounded where
  nBytes : ℕ
  mask : UInt8
  deriving DecidableEq

/-- The constructor, scalar25519.hpp:195-205.  `(8-n) & 7` of a possibly negative `int` is the
remainder modulo 8. -/
def Bounded.new (n : ℤ) : Res Bounded :=
  if n < 1 ∨ n > 251 then .throw
  else .ok ⟨((7 + n) / 8).toNat, (0xff : UInt8) >>> UInt8.ofNat (((8 - n) % 8).toNat)⟩

/-- `BoundedSizeScalar::operator()`, scalar25519.hpp:207-217.  `rnd` are the bytes of
`randombytes_buf`, `bit` is the random bit. -/
def Bounded.sample (b : Bounded) (rnd : Bytes) (bit : Bool) : Bytes :=
  let buf0 := rnd.take b.nBytes ++ List.replicate (32 - b.nBytes) 0
  let buf0 := buf0.set (b.nBytes - 1) (buf0.getD (b.nBytes - 1) 0 &&& b.mask)
  if bit then negateBytes buf0 else buf0

/-! ### Conversions to bytes -/

/-- The loop of `intFromBytes`, merlin.hpp:55-58: `num` is an `int`, so every sum is reduced
modulo `2^32` into the signed range. -/
def intFromBytesLoop : ℕ → ℤ → Bytes → ℤ
  | _, num, [] => num
  | i, num, b :: bs =>
    intFromBytesLoop (i + 1) (toInt32 (((num + (b.toNat * 2 ^ (8 * i) : ℕ)) % 2 ^ 64).toNat)) bs

/-- `intFromBytes`, merlin.hpp:54-60: reads 8 bytes; the `int` is converted to `size_t`. -/
def intFromBytes (buf : Bytes) : Res ℕ := do
  let b ← rdN buf 8
  .ok ((intFromBytesLoop 0 0 b % 2 ^ 64).toNat)

section
variable {q : ℕ}

/-- `scalarBytes(buf,s,bufSize)`, algebra.hpp:110-112. -/
def scalarBytes (s : ZMod q) (bufSize : ℕ) : Bytes := zzBytes bufSize s.val

/-- `scalarFromBytes`, algebra.hpp:127-131. -/
def scalarFromBytes (buf : Bytes) (bufSize : ℕ) : Res (ZMod q) := do
  let b ← rdN buf bufSize
  .ok ((leVal b : ℕ) : ZMod q)

/-- `conv(CRV25519::Scalar, BigInt)`, utils.hpp:57-59. -/
def convBig (a : ℤ) : Bytes := zzBytes 32 a

/-- NTL's representation of a polynomial: no trailing (leading-degree) zeros (NTL library). -/
def strip [DecidableEq (ZMod q)] (v : List (ZMod q)) : List (ZMod q) :=
  v.foldr (fun x acc => if acc = [] ∧ x = 0 then [] else x :: acc) []

/-- The loop of `elementBytes`, algebra.hpp:114-124, with `bytesPerScalar() = 32`. -/
def elementBytesLoop : List (ZMod q) → ℕ → ℕ → Bytes
  | [], _, bufSize => List.replicate bufSize 0
  | c :: cs, len, bufSize =>
    if bufSize = 0 then []
    else
      let len := if len > bufSize then bufSize else len
      scalarBytes c len ++ elementBytesLoop cs len (bufSize - len)

/-- `elementBytes(buf,e,bufSize)`, algebra.hpp:113-125. -/
def elementBytes {ell : ℕ} (e : Elt (ZMod q) ell) (bufSize : ℕ) : Bytes :=
  elementBytesLoop (strip e.toList) 32 bufSize

/-- The loop of `elementFromBytes`, algebra.hpp:135-143, for the remaining `k` coefficients; `px`
is the polynomial (coefficients from 0 on). -/
def elementFromLoop : ℕ → Bytes → ℕ → ℕ → Res (List (ZMod q))
  | 0, _, _, _ => .ok []
  | k + 1, buf, len, bufSize =>
    if bufSize = 0 then .ok []
    else do
      let len := if len > bufSize then bufSize else len
      let c ← scalarFromBytes buf len
      let cs ← elementFromLoop k (buf.drop len) len (bufSize - len)
      .ok (c :: cs)

/-- `elementFromBytes(e,buf,bufSize)`, algebra.hpp:132-145; the polynomial has degree below `ell`,
so the reduction of `conv(e,px)` does nothing. -/
def elementFromBytes {ell : ℕ} (buf : Bytes) (bufSize : ℕ) : Res (Elt (ZMod q) ell) := do
  let cs ← elementFromLoop ell buf 32 bufSize
  .ok ⟨fun i => cs.getD i.val 0⟩

end
end Verif.Sc
