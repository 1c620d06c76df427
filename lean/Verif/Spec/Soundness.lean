/-
Specification vocabulary for special soundness: trees of accepting conversations of one prover,
and the extractors that turn them into openings.  The extractors compute with scalars only.
-/
import Verif.Spec.Bulletproof
import Mathlib.Algebra.Module.Prod
import Mathlib.Algebra.Module.Pi
import Mathlib.Data.List.FinRange

namespace Verif.Spec

section
variable {F G : Type} [Field F] [AddCommGroup G] [Module F G]

/-! ### Linear proofs -/

/-- What a prover of a linear statement does from some level on, run again and again from the same
point with different challenges.  `node L R x₁ x₂ x₃ t₁ t₂ t₃`: it sends `L` and `R`, and goes on as in
`tᵢ` on challenge `xᵢ`.  `leaf S x₁ a₁ r₁ x₂ a₂ r₂`: it sends `S` and answers challenge `xᵢ` with
`aᵢ, rᵢ`. -/
inductive LinTree (F G : Type) where
  | leaf (S : G) (x₁ a₁ r₁ x₂ a₂ r₂ : F)
  | node (L R : G) (x₁ x₂ x₃ : F) (t₁ t₂ t₃ : LinTree F G)

/-- `verifyLinear` accepts the proof `(C, Ls, Rs, S, a, r)` in some environment (that is, for some
behaviour of the hash functions) in which the hash values are `Fg`, `xs` and `x`. -/
def LinAccepted [DecidableEq F] [DecidableEq G] (base : G) (gs : List G) (bs : List F) (eq : F)
    (off : Option (List F)) (C Fg : G) (Ls Rs : List G) (xs : List F) (S : G) (x a r : F) : Prop :=
  ∃ (E : Env F G) (tag : Bytes) (st st' : E.St), E.base = base ∧
    (deriveLin E ⟨tag, C, Ls, Rs, S, a, r⟩ gs.length st).Fg = Fg ∧
    (deriveLin E ⟨tag, C, Ls, Rs, S, a, r⟩ gs.length st).xs = xs ∧
    (deriveLin E ⟨tag, C, Ls, Rs, S, a, r⟩ gs.length st).x = x ∧
    verifyLinear E ⟨tag, C, Ls, Rs, S, a, r⟩ bs gs gs.length eq st off = .ok (true, st')

/-- All conversations in the tree are accepted, those before it being `Ls, Rs, xs`, and the challenges
at each place are distinct. -/
def LinTree.Accepted [DecidableEq F] [DecidableEq G] (base : G) (gs : List G) (bs : List F) (eq : F)
    (off : Option (List F)) (C Fg : G) : LinTree F G → List G → List G → List F → Prop
  | .leaf S x₁ a₁ r₁ x₂ a₂ r₂, Ls, Rs, xs => x₁ ≠ x₂ ∧
      LinAccepted base gs bs eq off C Fg Ls Rs xs S x₁ a₁ r₁ ∧
      LinAccepted base gs bs eq off C Fg Ls Rs xs S x₂ a₂ r₂
  | .node L R x₁ x₂ x₃ t₁ t₂ t₃, Ls, Rs, xs => x₁ ≠ x₂ ∧ x₁ ≠ x₃ ∧ x₂ ≠ x₃ ∧
      t₁.Accepted base gs bs eq off C Fg (Ls ++ [L]) (Rs ++ [R]) (xs ++ [x₁]) ∧
      t₂.Accepted base gs bs eq off C Fg (Ls ++ [L]) (Rs ++ [R]) (xs ++ [x₂]) ∧
      t₃.Accepted base gs bs eq off C Fg (Ls ++ [L]) (Rs ++ [R]) (xs ++ [x₃])

/-- `c₁ v₁ + c₂ v₂ + c₃ v₃`. -/
def comb3 (c₁ : F) (v₁ : List F) (c₂ : F) (v₂ : List F) (c₃ : F) (v₃ : List F) : List F :=
  List.zipWith (· + ·) (v₁.map (c₁ * ·)) (List.zipWith (· + ·) (v₂.map (c₂ * ·)) (v₃.map (c₃ * ·)))

/-- The weight of the conversation with challenge `x` when the others have challenges `y` and `z`:
the weights sum to 1, and the weighted sums of the challenges and of their inverses are 0. -/
def weight (x y z : F) : F := -(x * (y + z)) / ((x - y) * (x - z))

/-- The extractor: computes an opening (randomness and vector) from the challenges and answers. -/
def LinTree.extract : LinTree F G → F × List F
  | .leaf _ x₁ a₁ r₁ x₂ a₂ r₂ => ((r₁ - r₂) / (x₁ - x₂), [(a₁ - a₂) / (x₁ - x₂)])
  | .node _ _ x₁ x₂ x₃ t₁ t₂ t₃ =>
    let (r₁, a₁) := t₁.extract
    let (r₂, a₂) := t₂.extract
    let (r₃, a₃) := t₃.extract
    let w₁ := weight x₁ x₂ x₃
    let w₂ := weight x₂ x₁ x₃
    let w₃ := weight x₃ x₁ x₂
    (w₁ * r₁ + w₂ * r₂ + w₃ * r₃,
      comb3 w₁ a₁ w₂ a₂ w₃ a₃ ++ comb3 (w₁ * x₁) a₁ (w₂ * x₂) a₂ (w₃ * x₃) a₃)

/-! ### Quadratic proofs -/

/-- The same for quadratic statements: four challenges at each folding level, and five at the end,
answered with `a i`, `b i` and `r i`. -/
inductive QuadTree (F G : Type) where
  | leaf (S1 S2 : G) (x a b r : Fin 5 → F)
  | node (L R : G) (x : Fin 4 → F) (t : Fin 4 → QuadTree F G)

/-- `verifyQuadratic` accepts the proof `(C, Ls, Rs, S1, S2, a, b, r)` in some environment in which the
hash values are `Fg`, `xs` and `x`. -/
def QuadAccepted [DecidableEq F] [DecidableEq G] (base : G) (gs hs : List G) (eq : F)
    (uoff voff : Option (List F)) (C Fg : G) (Ls Rs : List G) (xs : List F) (S1 S2 : G) (x a b r : F) : Prop :=
  ∃ (E : Env F G) (tag : Bytes) (st st' : E.St), E.base = base ∧
    (deriveQuad E ⟨tag, C, Ls, Rs, S1, S2, a, b, r⟩ gs.length st).Fg = Fg ∧
    (deriveQuad E ⟨tag, C, Ls, Rs, S1, S2, a, b, r⟩ gs.length st).xs = xs ∧
    (deriveQuad E ⟨tag, C, Ls, Rs, S1, S2, a, b, r⟩ gs.length st).x = x ∧
    verifyQuadratic E ⟨tag, C, Ls, Rs, S1, S2, a, b, r⟩ gs hs gs.length eq st uoff voff = .ok (true, st')

/-- All conversations in the tree are accepted, and the challenges at each place are distinct. -/
def QuadTree.Accepted [DecidableEq F] [DecidableEq G] (base : G) (gs hs : List G) (eq : F)
    (uoff voff : Option (List F)) (C Fg : G) : QuadTree F G → List G → List G → List F → Prop
  | .leaf S1 S2 x a b r, Ls, Rs, xs => Function.Injective x ∧
      ∀ i, QuadAccepted base gs hs eq uoff voff C Fg Ls Rs xs S1 S2 (x i) (a i) (b i) (r i)
  | .node L R x t, Ls, Rs, xs => Function.Injective x ∧
      ∀ i, (t i).Accepted base gs hs eq uoff voff C Fg (Ls ++ [L]) (Rs ++ [R]) (xs ++ [x i])

/-- Coefficients with respect to `base`, `F`, the `G_i` and the `H_i`, in this order. -/
abbrev Coeffs (F : Type) := F × F × (ℕ → F) × (ℕ → F)

/-- The point with the given coefficients, for `n` generators `G_i` and `H_i`. -/
def Coeffs.eval (base Fg : G) (g h : ℕ → G) (n : ℕ) (o : Coeffs F) : G :=
  o.1 • base + o.2.1 • Fg + ((List.range n).map fun j => o.2.2.1 j • g j).sum
    + ((List.range n).map fun j => o.2.2.2 j • h j).sum

/-- No coefficient is different from zero. -/
def Coeffs.Trivial (n : ℕ) (o : Coeffs F) : Prop :=
  o.1 = 0 ∧ o.2.1 = 0 ∧ ∀ j, j < n → o.2.2.1 j = 0 ∧ o.2.2.2 j = 0

/-- Coefficients for the generators folded with `x` (and `1/x`), `h` of each kind, turned into
coefficients for the `2h` generators before folding. -/
def Coeffs.unfold (h : ℕ) (x : F) (o : Coeffs F) : Coeffs F :=
  (o.1, o.2.1, (fun j => if j < h then o.2.2.1 j else x * o.2.2.1 (j - h)),
    fun j => if j < h then o.2.2.2 j else x⁻¹ * o.2.2.2 (j - h))

/-- The coefficients of the polynomial `p₀ + p₁ X + p₂ X²` that has values `u, v, w` at `x, y, z`. -/
def interp {M : Type} [AddCommGroup M] [Module F M] (x y z : F) (u v w : M) : M × M × M :=
  let d := (x - y) * (x - z)
  let e := (y - x) * (y - z)
  let f := (z - x) * (z - y)
  ((y * z / d) • u + (x * z / e) • v + (x * y / f) • w,
   (-(y + z) / d) • u + (-(x + z) / e) • v + (-(x + y) / f) • w,
   (1 / d) • u + (1 / e) • v + (1 / f) • w)

/-- The extractor for a tree with `k` folding levels.  At a leaf, answer `i` gives coefficients of
`Q + x S1 + x² S2`; at a node, the result of subtree `i` gives coefficients of `Q + x L + x⁻¹ R`.  Three
of them determine coefficients of `Q`. -/
def QuadTree.extract : ℕ → QuadTree F G → Coeffs F
  | _, .leaf _ _ x a b r =>
    let u : Fin 5 → Coeffs F := fun i => (r i, a i * b i, fun _ => a i, fun _ => b i)
    (interp (x 0) (x 1) (x 2) (u 0) (u 1) (u 2)).1
  | k, .node _ _ x t =>
    let u : Fin 4 → Coeffs F := fun i => ((t i).extract (k - 1)).unfold (2 ^ (k - 1)) (x i)
    (interp (x 0) (x 1) (x 2) (x 0 • u 0) (x 1 • u 1) (x 2 • u 2)).2.1

/-- The linear relations found on the way: the other answers must agree with the coefficients that the
first three determine; if they do not, the difference is a relation between the generators. -/
def QuadTree.relations : ℕ → QuadTree F G → List (Coeffs F)
  | _, .leaf _ _ x a b r =>
    let u : Fin 5 → Coeffs F := fun i => (r i, a i * b i, fun _ => a i, fun _ => b i)
    let p := interp (x 0) (x 1) (x 2) (u 0) (u 1) (u 2)
    [p.1 + x 3 • p.2.1 + (x 3 ^ 2) • p.2.2 - u 3, p.1 + x 4 • p.2.1 + (x 4 ^ 2) • p.2.2 - u 4]
  | k, .node _ _ x t =>
    let u : Fin 4 → Coeffs F := fun i => ((t i).extract (k - 1)).unfold (2 ^ (k - 1)) (x i)
    let p := interp (x 0) (x 1) (x 2) (x 0 • u 0) (x 1 • u 1) (x 2 • u 2)
    (p.2.1 + x 3 • p.2.2 + (x 3)⁻¹ • p.1 - u 3) ::
      (List.finRange 4).flatMap fun i => ((t i).relations (k - 1)).map (Coeffs.unfold (2 ^ (k - 1)) (x i))

/-- An environment whose hash values are programmed: the generator F is `Fg` and the challenges are
`xs`, in order.  (Used to show that accepting trees exist.) -/
def progEnv (base Fg : G) (xs : List F) : Env F G where
  St := Nat
  init _ := 0
  commit st _ _ := st
  challenge st _ _ := (List.replicate st 0, st + 1)
  scalarBytes _ := []
  pointBytes _ := []
  scalarReduce b := xs.getD (b.length - 1) 0
  fromUniform _ := Fg
  hashToCurve _ := 0
  base := base

end

end Verif.Spec
