/-
Specification vocabulary for "a prover that convinces the verifier often enough": a prover is any function that says what is
sent, given the challenges so far; it can be run again and again from any point.
-/
import Verif.Spec.Soundness

namespace Verif.Spec

section
variable {F G : Type} [Field F] [AddCommGroup G] [Module F G]

/-- A prover of a linear statement: `fold xs` are the two points it sends after the challenges `xs`, `last xs` the point that it
sends after all folding challenges, `answer xs x` its two final answers to challenge `x`. -/
structure LinProver (F G : Type) where
  fold : List F → G × G
  last : List F → G
  answer : List F → F → F × F

/-- The first points it sends when the challenges are `xs`. -/
def LinProver.Ls (p : LinProver F G) (xs : List F) : List G := (List.range xs.length).map fun i => (p.fold (xs.take i)).1
/-- The second points it sends. -/
def LinProver.Rs (p : LinProver F G) (xs : List F) : List G := (List.range xs.length).map fun i => (p.fold (xs.take i)).2

/-- `verifyLinear` accepts what the prover sends if the challenges are `xs` and `x`. -/
def LinProver.Convinces [DecidableEq F] [DecidableEq G] (base : G) (gs : List G) (bs : List F) (eq : F)
    (off : Option (List F)) (C Fg : G) (p : LinProver F G) (xs : List F) (x : F) : Prop :=
  LinAccepted base gs bs eq off C Fg (p.Ls xs) (p.Rs xs) xs (p.last xs) x (p.answer xs x).1 (p.answer xs x).2

/-- Everything in the tree was sent by the prover, run again and again after the challenges `xs`. -/
def LinTree.PlayedBy (p : LinProver F G) : LinTree F G → List F → Prop
  | .leaf S x₁ a₁ r₁ x₂ a₂ r₂, xs => S = p.last xs ∧ (a₁, r₁) = p.answer xs x₁ ∧ (a₂, r₂) = p.answer xs x₂
  | .node L R x₁ x₂ x₃ t₁ t₂ t₃, xs => (L, R) = p.fold xs ∧ t₁.PlayedBy p (xs ++ [x₁]) ∧ t₂.PlayedBy p (xs ++ [x₂]) ∧
      t₃.PlayedBy p (xs ++ [x₃])

/-- A prover of a quadratic statement: it sends two points at the end and answers with three scalars. -/
structure QuadProver (F G : Type) where
  fold : List F → G × G
  last : List F → G × G
  answer : List F → F → F × F × F

/-- The first points it sends when the challenges are `xs`. -/
def QuadProver.Ls (p : QuadProver F G) (xs : List F) : List G := (List.range xs.length).map fun i => (p.fold (xs.take i)).1
/-- The second points it sends. -/
def QuadProver.Rs (p : QuadProver F G) (xs : List F) : List G := (List.range xs.length).map fun i => (p.fold (xs.take i)).2

/-- `verifyQuadratic` accepts what the prover sends if the challenges are `xs` and `x`. -/
def QuadProver.Convinces [DecidableEq F] [DecidableEq G] (base : G) (gs hs : List G) (eq : F)
    (uoff voff : Option (List F)) (C Fg : G) (p : QuadProver F G) (xs : List F) (x : F) : Prop :=
  QuadAccepted base gs hs eq uoff voff C Fg (p.Ls xs) (p.Rs xs) xs (p.last xs).1 (p.last xs).2 x
    (p.answer xs x).1 (p.answer xs x).2.1 (p.answer xs x).2.2

/-- Everything in the tree was sent by the prover, run again and again after the challenges `xs`. -/
def QuadTree.PlayedBy (p : QuadProver F G) : QuadTree F G → List F → Prop
  | .leaf S1 S2 x a b r, xs => (S1, S2) = p.last xs ∧ ∀ i, (a i, b i, r i) = p.answer xs (x i)
  | .node L R x t, xs => (L, R) = p.fold xs ∧ ∀ i, (t i).PlayedBy p (xs ++ [x i])

end

/-- The coins `w` (one for each folding challenge) and `o` (for the last challenge) make the challenges `chal w_i` and `chal o`. -/
def challenges {Ω F : Type} (chal : Ω → F) {k : ℕ} (w : Fin k → Ω) : List F := List.ofFn fun i => chal (w i)

end Verif.Spec
