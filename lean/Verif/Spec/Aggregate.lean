/-
Specification vocabulary for the aggregation of the Regev proofs: tables of values, and what it
means for a block commitment to open to the values of an assignment.
-/
import Verif.Spec.Vec
import Verif.Spec.Constraints

namespace Verif.Spec

/-- The map with the given keys and the values of the function `x`. -/
def tab {F : Type} (I : List ℕ) (x : ℕ → F) : List (ℕ × F) := I.map fun i => (i, x i)

section
variable {F G : Type} [Field F] [AddCommGroup G] [Module F G]

/-- The Pedersen commitment with randomness `r` to the `len` values `x from, x (from+1), …` with
respect to the generators at the same positions. -/
def comG (base : G) (Gs : List G) (x : ℕ → F) (start len : ℕ) (r : F) : G :=
  r • base + ((List.range' start len).map fun i => x i • Gs.getD i 0).sum

/-- The same for a double commitment, to the values of `x` with respect to the G generators and
those of `y` with respect to the H generators. -/
def comGH (base : G) (Gs Hs : List G) (x y : ℕ → F) (start len : ℕ) (r : F) : G :=
  r • base + ((List.range' start len).map fun i => x i • Gs.getD i 0 + y i • Hs.getD i 0).sum

end
section
variable {F : Type} [Field F]

/-- `(1, r, …, r^(n-1))`. -/
def pows (r : F) (n : ℕ) : List F := (List.range n).map fun i => r ^ i

/-- The coefficient of variable `i` in the combination `Σ_j r^j·c_j`. -/
def aggCoef (cs : List (LinConstraint F)) (r : F) (i : ℕ) : F :=
  ((cs.zip (pows r cs.length)).map fun p => p.2 * coef p.1.terms i).sum

/-- The right-hand side of `Σ_j r^j·c_j`, over the constraints that have a term. -/
def aggRhs (cs : List (LinConstraint F)) (r : F) : F :=
  (((cs.zip (pows r cs.length)).filter fun p => p.1.terms.length ≠ 0).map
    fun p => p.2 * p.1.equalsTo).sum

/-- The index sets of the norm constraints are the consecutive blocks of `B` variables
`[0,B), [B,2B), …`. -/
def NormBlocks (cs : List (QuadConstraint F)) (B : ℕ) : Prop :=
  ∀ k (h : k < cs.length), cs[k].indexes = List.range' (B * k) B

end
end Verif.Spec
