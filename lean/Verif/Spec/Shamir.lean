/-
Specification of Shamir sharing, in terms of Mathlib polynomials.
-/
import Mathlib.Algebra.Polynomial.Eval.Defs
import Mathlib.Algebra.Polynomial.Degree.Defs
import Mathlib.LinearAlgebra.Span.Defs
import Mathlib.LinearAlgebra.LinearIndependent.Defs

namespace Verif.Spec
open Polynomial
variable {F : Type} [Field F]

/-- `v` is a valid sharing with threshold `t` for the evaluation points `pts`: the values of
one polynomial of degree less than `t` at `0` (the secret) and at the points. -/
def ValidSharing (t : Nat) (pts : List Int) (v : List F) : Prop :=
  ∃ p : F[X], p.degree < t ∧ v = p.eval 0 :: pts.map fun (x : Int) => p.eval (x : F)

/-- The shares (of a vector with the secret in front) that belong to a subset of the
evaluation points. -/
def sharesAt (pts : List Int) (v : List F) (sub : List Int) : List F :=
  ((pts.zip v.tail).filter fun p => p.1 ∈ sub).map Prod.snd

/-- `H·v` as a list. -/
def matVec (H : List (List F)) (v : List F) : List F :=
  H.map fun row => ((row.zip v).map fun p => p.1 * p.2).sum

/-- The documented contract of NTL's `kernel(X,A)`: the rows of `X` are a basis of the
space of row vectors `x` with `x·A = 0`; only "they generate that space" is needed.
Vectors have one entry per row of `A`. -/
def GeneratesLeftKernel (H A : List (List F)) (nrows ncols : Nat) : Prop :=
  (∀ row ∈ H, row.length = nrows) ∧
  ∀ x : Fin nrows → F,
    (∀ j : Fin ncols, (∑ i : Fin nrows, x i * ((A.getD i []).getD j 0)) = 0) ↔
      x ∈ Submodule.span F {y : Fin nrows → F | ∃ row ∈ H, ∀ i : Fin nrows, row[i.1]? = some (y i)}

/-- The whole contract of NTL's `kernel(X,A)`: the rows of `X` are a basis. -/
def LeftKernelBasis (H A : List (List F)) (nrows ncols : Nat) : Prop :=
  GeneratesLeftKernel H A nrows ncols ∧
  LinearIndependent F fun (k : Fin H.length) (i : Fin nrows) => (H[k.1]).getD i 0

end Verif.Spec
