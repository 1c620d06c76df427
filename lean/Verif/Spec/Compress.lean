/-
Specification vocabulary for what the compressed vectors show about the vectors they are made from.
-/
import Verif.Spec.RegevSetup
import Verif.Spec.Smallness

namespace Verif.Spec
open Regev
open scoped BigOperators

/-- The number of subsets with at most `k` elements of a set of `m` elements. -/
def fewOf (m k : ℕ) : ℕ := ∑ i ∈ Finset.range (k + 1), m.choose i

section
variable {q : ℕ} [Fact q.Prime]

/-- The assignments `x` and `x'` agree on the `len` variables from `off` on. -/
def SameOn (x x' : ℕ → ZMod q) (off len : ℕ) : Prop := ∀ i, off ≤ i → i < off + len → x i = x' i

/-- In the values `x`, the high digits in block `hi` and the low digits in block `lo` have the norms that are
recorded for these blocks and are the digits of the 128 ring elements `u`. -/
def DigitsOf (P : Params q) (x : ℕ → ZMod q) (hi lo : ℕ) (u : ℕ → Elt (ZMod q) 2) : Prop :=
  NormExact P x hi ∧ NormExact P x lo ∧ ∀ j < 128, digits x (260 * lo) (260 * hi) P.radix j = u j

/-- In the values `x`, block `k` has the norm that is recorded for it and starts with the 128 ring elements `u`. -/
def BlockIs (P : Params q) (x : ℕ → ZMod q) (k : ℕ) (u : ℕ → Elt (ZMod q) 2) : Prop :=
  NormExact P x k ∧ ∀ j < 128, eltAt x (260 * k) j = u j

/-- The norm of a vector whose digits are in blocks `hi` and `lo` is at most this. -/
def digitsBound (P : Params q) (hi lo : ℕ) : ℤ := normBound P lo + P.radix * normBound P hi

end
end Verif.Spec
