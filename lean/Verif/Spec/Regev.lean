/-
Specification vocabulary for the Regev proof utilities: norms of the balanced representatives,
the left-hand side of a linear constraint.
-/
import Verif.Spec.Elt
import Verif.Spec.Constraints
import Mathlib.Data.ZMod.ValMinAbs

namespace Verif.Spec

/-- The squared Euclidean norm of the integer representatives of least absolute value. -/
def normSq {q : ℕ} (v : List (ZMod q)) : ℤ := (v.map fun s => s.valMinAbs ^ 2).sum

/-- All coefficients of a vector of ring elements. -/
def coeffs {F : Type} {ell : ℕ} (v : List (Elt F ell)) : List F :=
  v.flatMap fun e => List.ofFn e.c

/-- The value of the left-hand side `Σ a_i·x_i` of a linear constraint. -/
def linLhs {F : Type} [Field F] (c : LinConstraint F) (x : ℕ → F) : F :=
  (c.terms.map fun p => p.2 * x p.1).sum

/-- The `k`-th block of `ell` variables starting at index `idx`. -/
def block {F : Type} (ell : ℕ) (x : ℕ → F) (idx k : ℕ) : Fin ell → F := fun j => x (idx + ell * k + j)

end Verif.Spec
