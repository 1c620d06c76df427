/-
The contract of the libsodium functions on points, used as a hypothesis: the main subgroup `G` of
edwards25519, a group in which multiplication by residues modulo the order makes sense, with an
encoding of its elements as bytes.
-/
import Verif.Model.Point25519
import Verif.Spec.Scalar

namespace Verif.Spec
open Verif.Sc

/-- Addition and subtraction succeed on points of the curve.  Multiplication refuses the identity, as a
point of small order, and refuses to return the identity; nothing is assumed about it for numbers of 2^255 or more, where
the library ignores the top bit. -/
structure SodiumOk {G : Type} [DecidableEq G] [AddCommGroup G] [Module (ZMod order) G] (S : Sodium) (enc : G → Bytes)
    (base : G) : Prop where
  inj : Function.Injective enc
  add : ∀ p q, S.add (enc p) (enc q) = some (enc (p + q))
  sub : ∀ p q, S.sub (enc p) (enc q) = some (enc (p - q))
  mul : ∀ (n : Bytes) (p : G), n.length = 32 → number n < 2 ^ 255 → S.mul n (enc p) =
    if p ≠ 0 ∧ (number n : ZMod order) • p ≠ 0 then some (enc ((number n : ZMod order) • p)) else none
  mulBase : ∀ n : Bytes, n.length = 32 → number n < 2 ^ 255 → S.mulBase n =
    if (number n : ZMod order) • base ≠ 0 then some (enc ((number n : ZMod order) • base)) else none
  identityPoint : S.identityPoint = enc 0
  basePoint : S.basePoint = enc base

end Verif.Spec
