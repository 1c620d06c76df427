/-
Model of the static initialisation of `CRV25519::Point`, /repo/src/25519/curve25519.cpp:33-61.
-/
import Verif.Model.Point25519

namespace Verif.Sc
open Verif

/-- The static variables of `Point` and of `Point::init`. -/
structure PointStatics where
  identityPoint : Bytes
  basePoint : Bytes
  firstTime : Bool

/-- The values before any initialisation: zeroes (C++), and `firstTime` (curve25519.cpp:39). -/
def PointStatics.zero : PointStatics := ⟨List.replicate 32 0, List.replicate 32 0, true⟩

/-- The default constructor `Point()`, point25519.hpp:44. -/
def PointStatics.point (st : PointStatics) : Bytes := st.identityPoint

/-- `Point::init`, curve25519.cpp:38-61; `rc` is what `sodium_init` returns (0; 1 if it was called before; -1 if it failed).
The subtraction uses the current, not yet initialised, identity. -/
def pointInit (S : Sodium) (rc : ℤ) (st : PointStatics) : Res (Bytes × PointStatics) :=
  if !st.firstTime then .ok (st.point, st)
  else if rc ≠ 0 then .throw
  else do
    let one ← setInteger 1
    match S.mulBase one with
    | none => .throw
    | some b =>
      let r ← Sodium.ptSub { S with identityPoint := st.identityPoint, basePoint := b } b b
      .ok (r, { st with basePoint := b, firstTime := false })

/-- The static initialisers of the file, in order, curve25519.cpp:33-36. -/
def staticInit (S : Sodium) (rc : ℤ) : Res PointStatics := do
  let st := PointStatics.zero
  let st := { st with basePoint := st.point }
  let (p, st) ← pointInit S rc st
  .ok { st with identityPoint := p }

end Verif.Sc
