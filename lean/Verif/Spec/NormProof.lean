/-
Vocabulary for what a norm-squared proof shows.
-/
import Verif.Spec.Bulletproof
import Mathlib.Algebra.BigOperators.Group.Finset.Basic

namespace Verif.Spec

section
variable {F : Type} [Field F]

/-- The vector that the prover of a norm commits to with the generators G, for challenge `x`:
`v_i + x^(i+1)`. -/
def normUp (x : F) (n : ℕ) (v : ℕ → F) : List F := (List.range n).map fun i => v i + x ^ (i + 1)

/-- The vector that it commits to with the generators H: `w_i - x^(i+1)`, where an honest prover has
`w = v`. -/
def normDown (x : F) (n : ℕ) (w : ℕ → F) : List F := (List.range n).map fun i => w i - x ^ (i + 1)

/-- The inner product of `v` and `w`. -/
def innerUpTo (n : ℕ) (v w : ℕ → F) : F := ∑ i ∈ Finset.range n, v i * w i

/-- The test that `v = w`: `sum_i (w_i - v_i) x^(i+1)`. -/
def normTest (x : F) (n : ℕ) (v w : ℕ → F) : F := ∑ i ∈ Finset.range n, (w i - v i) * x ^ (i + 1)

end

end Verif.Spec
