/-
Model of the operators of `CRV25519::Point`, /repo/include/point25519.hpp.  A `Point` is its array of
bytes.  The libsodium functions are parameters (their contract is `Verif.Spec.SodiumOk`): `none` is a
non-zero return code.
-/
import Verif.Model.ScalarOps

namespace Verif.Sc
open Verif

/-- The functions of libsodium that `Point` calls. -/
structure Sodium where
  /-- `crypto_core_ed25519_add` -/
  add : Bytes → Bytes → Option Bytes
  /-- `crypto_core_ed25519_sub` -/
  sub : Bytes → Bytes → Option Bytes
  /-- `crypto_scalarmult_ed25519_noclamp(q,n,p)` -/
  mul : Bytes → Bytes → Option Bytes
  /-- `crypto_scalarmult_ed25519_base_noclamp(q,n)` -/
  mulBase : Bytes → Option Bytes
  /-- the values of `identityPoint` and `basePoint`, computed by `Point::init`, curve25519.cpp:37-61 -/
  identityPoint : Bytes
  basePoint : Bytes

/-- `Point::operator+=`, point25519.hpp:66-78. -/
def Sodium.ptAdd (S : Sodium) (p q : Bytes) : Res Bytes :=
  if q = S.identityPoint then .ok p
  else if p = S.identityPoint then .ok q
  else match S.add p q with
    | some r => .ok r
    | none => .throw

/-- `Point::operator-=`, point25519.hpp:82-90. -/
def Sodium.ptSub (S : Sodium) (p q : Bytes) : Res Bytes :=
  if q = S.identityPoint then .ok p
  else match S.sub p q with
    | some r => .ok r
    | none => .throw

/-- `Point::operator*=`, point25519.hpp:94-109 (without the time measurement). -/
def Sodium.ptMul (S : Sodium) (p n : Bytes) : Res Bytes :=
  if p = S.identityPoint ∨ isZeroBytes n = true then .ok S.identityPoint
  else match S.mul n p with
    | some r => .ok r
    | none => .throw

/-- `baseTimesScalar`, point25519.hpp:132-139. -/
def Sodium.baseTimesScalar (S : Sodium) (n : Bytes) : Res Bytes :=
  match S.mulBase n with
  | some r => .ok r
  | none => .throw

/-- The loop of `multiExp`, naive.cpp:32-37, from the value `acc` of the sum on: `c += Gs[i]*xes[i]`. -/
def Sodium.sumMul (S : Sodium) : List Bytes → List Bytes → Bytes → Res Bytes
  | n :: ns, p :: ps, acc => do
    let t ← S.ptMul p n
    let acc ← S.ptAdd acc t
    S.sumMul ns ps acc
  | _, _, acc => .ok acc

end Verif.Sc
