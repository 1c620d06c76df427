/-
Independent specification vocabulary for vectors: inner products, linear
combinations of points, subset products.
-/
import Mathlib.Algebra.Module.Basic
import Mathlib.Algebra.Field.Basic
import Mathlib.Algebra.BigOperators.Group.List.Basic

namespace Verif.Spec

section
variable {F G : Type} [Field F] [AddCommGroup G] [Module F G]

/-- `Σ_i x_i • g_i`. -/
def mexp (xs : List F) (gs : List G) : G := (List.zipWith (fun x g => x • g) xs gs).sum

/-- `Σ_i a_i * b_i`. -/
def dot (as bs : List F) : F := (List.zipWith (fun a b => a * b) as bs).sum

/-- The product of those scalars `basis[j]` for which bit `|basis|-1-j` of `i` is set:
the first basis scalar belongs to the most significant bit. -/
def subsetProd (basis : List F) (i : Nat) : F :=
  ((List.range basis.length).map
    (fun j => if i.testBit (basis.length - 1 - j) then basis.getD j 1 else 1)).prod

end

end Verif.Spec
