/-
Balanced representatives, independently of the model.
-/
import Mathlib.Data.Int.ModEq

namespace Verif.Spec

/-- `x` is the representative of `r` modulo `q` in `(-q/2, q/2]`. -/
def BalancedRep (q : ℕ) (r : ℕ) (x : ℤ) : Prop := -(q : ℤ) < 2 * x ∧ 2 * x ≤ q ∧ x ≡ r [ZMOD q]

/-- The static variable is not set yet, or was set while the modulus was `q`. -/
def HalfOk (q : ℕ) (half : Option ℤ) : Prop := half = none ∨ half = some ((q : ℤ) / 2)

end Verif.Spec
