/-
What an element of the extension ring means: a polynomial over the scalars, taken modulo
`X^ell + 1`.
-/
import Verif.Model.Elt
import Mathlib.RingTheory.AdjoinRoot

namespace Verif.Spec
open Polynomial
variable {F : Type} [CommRing F]

/-- The polynomial `Σ a_i X^i` with the given coefficients. -/
noncomputable def polyOf {ell : ℕ} (a : Fin ell → F) : F[X] := ∑ i, C (a i) * X ^ i.val

/-- The modulus `X^ell + 1`. -/
noncomputable def phi (F : Type) [CommRing F] (ell : ℕ) : F[X] := X ^ ell + 1

/-- The element represented in the quotient ring `F[X]/(X^ell+1)`. -/
noncomputable def inRing {ell : ℕ} (a : Elt F ell) : AdjoinRoot (phi F ell) :=
  AdjoinRoot.mk (phi F ell) (polyOf a.c)

end Verif.Spec
