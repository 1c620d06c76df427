/-
What the two final statements of a round say about the committed values, and how the challenges enter.
-/
import Verif.Spec.Opened
import Verif.Spec.Tail

namespace Verif.Spec

/-- What remains of the constraints `lin` and `norm` of a round in the final statement, for values `x` committed to with
respect to the G generators and `y` with respect to the H generators (see C63). -/
structure Enforced {F : Type} [Field F] (lin : List (LinConstraint F)) (norm : List (QuadConstraint F)) (x y : ℕ → F) :
    Prop where
  /-- the two sides agree, except on variable 0 -/
  agree : ∀ i, 0 < i → i < 260 * 10 → y i = x i
  /-- the linear constraints hold -/
  linear : ∀ c ∈ lin, c.terms ≠ [] → LinSat c fun i => if i < 260 * 10 then y i else x i
  /-- the norm constraints of all blocks but the first hold -/
  norms : ∀ k (hk : k < norm.length), 0 < k → QuadSat norm[k] y y
  /-- what is left of the first one -/
  first : x 0 * y 0 + ((List.range' 1 259).map fun i => y i * y i).sum + (y 0 - x 0) = (norm.getD 0 ⟨[], 0⟩).equalsTo

/-- What the variables that occur only in linear constraints contribute to the combined one: the value of the extra
variable that the final linear proof enforces (see C87). -/
def linOnly {F : Type} [Field F] (lin : List (LinConstraint F)) (w : ℕ) (x : ℕ → F) (r1 : F) : F :=
  ((List.range' (260 * 10) (w - 260 * 10)).map fun i => aggCoef lin r1 i * x i).sum

/-- The bytes of the four challenges of the aggregation. -/
abbrev AggBytes : Type := (Fin 64 → Fin 256) × (Fin 64 → Fin 256) × (Fin 64 → Fin 256) × (Fin 64 → Fin 256)

/-- The environment in which the four challenges of the aggregation are answered with the given bytes. -/
def answeringAgg {F G : Type} (E : Env F G) (b : AggBytes) : Env F G :=
  answering (answering (answering (answering E "aggregateLinear" b.1) "aggregateNorms" b.2.1) "enforceNorm" b.2.2.1)
    "separareLinQuad" b.2.2.2

end Verif.Spec
