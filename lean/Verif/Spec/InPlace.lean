/- What is left in an array that was folded in place, by index: independent of the loops. -/
import Mathlib.Algebra.BigOperators.Group.Finset.Basic
import Mathlib.Data.Nat.Size
import Verif.Spec.Vec

namespace Verif.Spec

section
variable {F G : Type} [Field F] [AddCommGroup G] [Module F G]

/-- Entry `i` of a vector `v` after it was folded in place with the challenges `xs`: the sum of
the entries `v_j` of which `i` is the lower part (`j` and `i` agree on as many low bits as `i`
has), each multiplied by the challenges selected by the remaining bits of `j`.  Entry `0` is
the sum over all `j`. -/
def leftAt (xs : List F) (v : List G) (i : ℕ) : G :=
  ∑ j ∈ Finset.range v.length,
    if j % 2 ^ i.size = i then subsetProd xs (j - i) • v.getD j 0 else 0

/-- The whole vector after folding in place (scalars). -/
def leftBehind (xs : List F) (v : List G) : List G :=
  (List.range v.length).map (leftAt xs v)

/-- The highest power of two in `i`, and `0` for `i = 0`. -/
def topBit (i : ℕ) : ℕ := if i = 0 then 0 else 2 ^ (i.size - 1)

/-- The whole vector after folding in place (generators): `foldGenerators` also multiplies the
upper half by the challenge, so entry `i > 0` carries in addition the challenge of its own
highest bit. -/
def leftGens (xs : List F) (v : List G) : List G :=
  (List.range v.length).map (fun i => subsetProd xs (topBit i) • leftAt xs v i)

/-- How many of `k` challenges occur in the `j`-th subset product: the one bits of `j`. -/
def bitCount (k j : ℕ) : ℕ := ((Finset.range k).filter (fun b => j.testBit b)).card

/-- `Σ_j (number of challenges in z_j) z_j v_j`. -/
def countedSum (xs : List F) (v : List G) : G :=
  ∑ j ∈ Finset.range v.length, bitCount xs.length j • subsetProd xs j • v.getD j 0

end
end Verif.Spec
