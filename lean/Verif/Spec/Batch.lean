/-
Specification vocabulary for equations that are batched with the powers of a challenge.
-/
import Verif.Spec.RegevProofs
import Verif.Spec.Smallness

namespace Verif.Spec
open Regev

section
variable {q : ℕ} [Fact q.Prime]

/-- The bad challenges for the equations `d_0 = 0, …, d_{m-1} = 0`: one of them is false, but the batched equation
`Σ ξ^j·d_j = 0` is true. -/
def BadBatch (m : ℕ) (d : ℕ → Elt (ZMod q) 2) : Set (Elt (ZMod q) 2) :=
  {ξ | (∃ j < m, d j ≠ 0) ∧ batch m ξ d = 0}

end
end Verif.Spec
