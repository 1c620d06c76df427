/-
Model of the arithmetic of `CRV25519::Scalar` (/repo/include/scalar25519.hpp) and of
`innerProduct` (/repo/src/25519/curve25519.cpp).  Continues `Verif.Model.Scalar25519`.
-/
import Verif.Model.Scalar25519

namespace Verif.Sc
open Verif

/-- Square and multiply, `fuel` bits of the exponent. -/
def powModLoop : ℕ → ℕ → ℕ → ℕ → ℕ → ℕ
  | 0, _, _, acc, _ => acc
  | fuel + 1, b, e, acc, m =>
    if e = 0 then acc
    else powModLoop fuel (b * b % m) (e / 2) (if e % 2 = 1 then acc * b % m else acc) m

/-- `b^e mod m`, for `e < 2^256`. -/
def powMod (b e m : ℕ) : ℕ := powModLoop 256 b e 1 m

/-- `Scalar::operator+=`, scalar25519.hpp:85-88, `crypto_core_ed25519_scalar_add` (libsodium). -/
def addBytes (a b : Bytes) : Bytes := zzBytes 32 (((leVal a + leVal b) % P : ℕ) : ℤ)

/-- `Scalar::operator-=`, scalar25519.hpp:94-97, `crypto_core_ed25519_scalar_sub` (libsodium: adds the
negation). -/
def subBytes (a b : Bytes) : Bytes := addBytes a (negateBytes b)

/-- `Scalar::operator*=`, scalar25519.hpp:103-106, `crypto_core_ed25519_scalar_mul` (libsodium). -/
def mulBytes (a b : Bytes) : Bytes := zzBytes 32 ((leVal a * leVal b % P : ℕ) : ℤ)

/-- `Scalar::invert`, scalar25519.hpp:69-75.  `crypto_core_ed25519_scalar_invert` (libsodium) raises to
the power `P-2` and reports an error if all bytes are zero. -/
def invertBytes (b : Bytes) : Res Bytes :=
  if b.all (· == 0) then .throw else .ok (zzBytes 32 (powMod (leVal b) (P - 2) P : ℕ))

/-- `Scalar::operator/=`, scalar25519.hpp:112-116. -/
def divBytes (a b : Bytes) : Res Bytes := do
  let tmp ← invertBytes b
  .ok (mulBytes a tmp)

/-- `Scalar::operator==`, scalar25519.hpp:55-57. -/
def eqBytes (a b : Bytes) : Bool := a == b

/-- `Scalar::isZero`, scalar25519.hpp:59; `Scalar()` is 32 zero bytes (line 50). -/
def isZeroBytes (a : Bytes) : Bool := eqBytes (List.replicate 32 0) a

/-- The loop of `innerProduct(a,b,n)`, curve25519.cpp:64-70, from index `i`, `n` iterations left. -/
def innerLoop (a b : List Bytes) : ℕ → ℕ → Bytes → Res Bytes
  | 0, _, ret => .ok ret
  | n + 1, i, ret => do
    let x ← rd a i
    let y ← rd b i
    innerLoop a b n (i + 1) (addBytes ret (mulBytes x y))

/-- `innerProduct(const Scalar*, const Scalar*, size_t)`, curve25519.cpp:64-70. -/
def innerProduct (a b : List Bytes) (n : ℕ) : Res Bytes := innerLoop a b n 0 (List.replicate 32 0)

end Verif.Sc
