/-
Model of /repo/src/tools/shamir.cpp and /repo/include/shamir.hpp (Shamir secret sharing).

`std::set<int>` is the list of its elements in increasing order.  NTL's `ZZ_p` is a
field `F` (the code sets a prime modulus); an `int` enters a computation in `ZZ_p` through
the canonical ring homomorphism `Int.cast`.
-/
import Verif.Model.Basic
import Mathlib.Algebra.Field.Defs
import Mathlib.Data.Int.Cast.Basic

namespace Verif
variable {F : Type} [Field F] [DecidableEq F]

/-- `SharingParams`, shamir.hpp:38-72: threshold, evaluation points, parity-check matrix
(list of rows). -/
structure SharingParams (F : Type) where
  thr : Nat
  evalPoints : List Int
  H : List (List F)

/-- Row of the generating matrix for evaluation point `ep`, shamir.cpp:48-55: the first
entry is 1 and each following one is the previous one times `ep` (the code fills the
matrix column by column; the value of each entry is the same). -/
def genRow (ep : F) : Nat → F → List F
  | 0, _ => []
  | k + 1, cur => cur :: genRow ep k (cur * ep)

/-- Generating matrix `G` of `SharingParams::computeKernel`, shamir.cpp:34-56: row 0 is
`1 0 0 ...` (`row i=0 need not change` after `resize`, which zero-fills), row `i` belongs
to the `i`'th evaluation point.  With threshold 0 the access `G[i][0]` is out of bounds. -/
def genMatrix (evalPoints : List Int) (t : Nat) : Res (List (List F)) :=
  if t = 0 then .ub
  else .ok ((1 :: List.replicate (t - 1) 0) :: evalPoints.map fun (ep : Int) => genRow (ep : F) t 1)

/-- `SharingParams(ev,t)`, shamir.hpp:56-57 with `computeKernel`, shamir.cpp:34-61.  The
kernel routine is NTL's `kernel(X,A)`; `ntlKernel` stands for it. -/
def SharingParams.make (ntlKernel : List (List F) → List (List F)) (ev : List Int) (t : Nat) :
    Res (SharingParams F) := do
  let G ← genMatrix ev t
  pure { thr := t, evalPoints := ev, H := ntlKernel G }

/-- NTL's `eval(v,p,points)` on one point, coefficients from the constant term up. -/
def evalCoeffs : List F → F → F
  | [], _ => 0
  | c :: cs, x => c + x * evalCoeffs cs x

/-- The coefficients of the random polynomial of `newSharing`, shamir.cpp:68-74: the loop
runs from `t-1` down to 1, so the first random scalar becomes the leading coefficient.
`rs` are the random scalars in the order in which they are drawn (`t-1` of them). -/
def sharingCoeffs (rs : List F) (s : F) : List F := s :: rs.reverse

/-- `SharingParams::newSharing`, shamir.cpp:66-85: the values at `0` and at all evaluation
points.  `rs` are the `t-1` random scalars. -/
def newSharing (evalPoints : List Int) (rs : List F) (s : F) : List F :=
  ((0 : F) :: evalPoints.map fun (ep : Int) => (ep : F)).map fun x => evalCoeffs (sharingCoeffs rs s) x

/-- The inner loop of `lagrangeCoeffs`, shamir.cpp:95-103.  `xj-xi` is computed in `int`
(undefined on overflow). -/
def lagrangeInner (xi : Int) : List Int → F → F → Res (F × F)
  | [], numer, denom => .ok (numer, denom)
  | xj :: rest, numer, denom =>
    if xi ≠ xj then
      if xj - xi < -2 ^ 31 ∨ 2 ^ 31 ≤ xj - xi then .ub
      else lagrangeInner xi rest (numer * (xj : F)) (denom * ((xj - xi : Int) : F))
    else lagrangeInner xi rest numer denom

/-- The outer loop of `lagrangeCoeffs`, shamir.cpp:93-105.  Division by zero is an NTL
error. -/
def lagrangeOuter (recSet : List Int) : List Int → Res (List F)
  | [] => .ok []
  | xi :: rest => do
    let nd ← lagrangeInner (F := F) xi recSet 1 1
    if nd.2 = 0 then .throw
    else do
      let v ← lagrangeOuter recSet rest
      pure (nd.1 / nd.2 :: v)

/-- `SharingParams::lagrangeCoeffs`, shamir.cpp:91-107. -/
def lagrangeCoeffs (recSet : List Int) : Res (List F) := lagrangeOuter recSet recSet

/-- NTL's `InnerProduct(x,a,b)` (via algebra.hpp:148-152): over the common length. -/
def ntlInnerProduct (a b : List F) : F := ((a.zip b).map fun p => p.1 * p.2).sum

/-- `SharingParams::getSecret`, shamir.cpp:110-113. -/
def getSecret (sharing : List F) (recSet : List Int) : Res F := do
  let coeffs ← lagrangeCoeffs recSet
  pure (ntlInnerProduct coeffs sharing)

end Verif
