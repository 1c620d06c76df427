/-
Specification vocabulary for provers that compute the challenges themselves (Fiat-Shamir): a transcript whose challenges come from
a random function of everything that happened to the transcript before, and programs that can evaluate this function a limited
number of times.
-/
import Verif.Spec.Soundness
import Mathlib.Data.Finset.Defs

namespace Verif.Spec

/-- What can happen to a transcript: it is started, a message is absorbed, `n` bytes are drawn. -/
inductive Entry where
  | started (label : Bytes)
  | absorbed (label message : Bytes)
  | drawn (label : Bytes) (n : ℕ)
  deriving DecidableEq

/-- The input of the random function: everything that happened to the transcript, the label of the request and the number of
bytes requested. -/
abbrev Query := List Entry × Bytes × ℕ

section
variable {F G Ω : Type}

/-- The environment `E` with its transcript replaced by one that draws its bytes from the function `H`: on request of `n` bytes
after the history `h` it answers with `ans n (H (h, label, n))`. -/
def oracleEnv (E : Env F G) (ans : ℕ → Ω → Bytes) (H : Query → Ω) : Env F G where
  St := List Entry
  init l := [.started l]
  commit st l m := st ++ [.absorbed l m]
  challenge st l n := (ans n (H (st, l, n)), st ++ [.drawn l n])
  scalarBytes := E.scalarBytes
  pointBytes := E.pointBytes
  scalarReduce := E.scalarReduce
  fromUniform := E.fromUniform
  hashToCurve := E.hashToCurve
  base := E.base

/-- A program that evaluates the function at `q` and goes on with `next` of the result, or ends with a result. -/
inductive Program (Q Ω α : Type) where
  | done (a : α)
  | ask (q : Q) (next : Ω → Program Q Ω α)

/-- Its result, when the function is `H`. -/
def Program.run {Q α : Type} (H : Q → Ω) : Program Q Ω α → α
  | .done a => a
  | .ask q next => (next (H q)).run H

/-- The result is `a`. -/
def Program.Outputs {Q α : Type} (A : Program Q Ω α) (H : Q → Ω) (a : α) : Prop := A.run H = a

/-- Where it evaluates the function, when that is `H`. -/
def Program.asked {Q α : Type} (H : Q → Ω) : Program Q Ω α → List Q
  | .done _ => []
  | .ask q next => q :: (next (H q)).asked H

open Classical in
/-- The function that is `H` on the finite set `D` and `H₀` elsewhere. -/
noncomputable def onSet {Q : Type} (D : Finset Q) (H₀ : Q → Ω) (H : D → Ω) : Q → Ω :=
  fun q => if h : q ∈ D then H ⟨q, h⟩ else H₀ q

variable [Field F] [AddCommGroup G] [Module F G] [DecidableEq F] [DecidableEq G]

/-- For some function `H` the proof `(C, Ls, Rs, S, a, r)` is output (`Out H` are the proofs output for `H`), the challenges computed
from it with `H` are `Fg`, `xs` and `x`, and `verifyLinear` accepts. -/
def LinOutput (E : Env F G) (ans : ℕ → Ω → Bytes) (start : List Entry) (gs : List G) (bs : List F) (eq : F)
    (off : Option (List F)) (Out : (Query → Ω) → LinPf F G → Prop) (C Fg : G) (Ls Rs : List G) (xs : List F) (S : G) (x a r : F) :
    Prop :=
  ∃ (H : Query → Ω) (tag : Bytes) (st' : List Entry), Out H ⟨tag, C, Ls, Rs, S, a, r⟩ ∧
    (deriveLin (oracleEnv E ans H) ⟨tag, C, Ls, Rs, S, a, r⟩ gs.length start).Fg = Fg ∧
    (deriveLin (oracleEnv E ans H) ⟨tag, C, Ls, Rs, S, a, r⟩ gs.length start).xs = xs ∧
    (deriveLin (oracleEnv E ans H) ⟨tag, C, Ls, Rs, S, a, r⟩ gs.length start).x = x ∧
    verifyLinear (oracleEnv E ans H) ⟨tag, C, Ls, Rs, S, a, r⟩ bs gs gs.length eq start off = .ok (true, st')

/-- Every conversation in the tree is an accepted output, for some function `H`; those before it being
`Ls, Rs, xs`. -/
def LinTree.OutputBy (E : Env F G) (ans : ℕ → Ω → Bytes) (start : List Entry) (gs : List G) (bs : List F) (eq : F)
    (off : Option (List F)) (Out : (Query → Ω) → LinPf F G → Prop) (C Fg : G) : LinTree F G → List G → List G → List F → Prop
  | .leaf S x₁ a₁ r₁ x₂ a₂ r₂, Ls, Rs, xs =>
      LinOutput E ans start gs bs eq off Out C Fg Ls Rs xs S x₁ a₁ r₁ ∧
      LinOutput E ans start gs bs eq off Out C Fg Ls Rs xs S x₂ a₂ r₂
  | .node L R x₁ x₂ x₃ t₁ t₂ t₃, Ls, Rs, xs =>
      t₁.OutputBy E ans start gs bs eq off Out C Fg (Ls ++ [L]) (Rs ++ [R]) (xs ++ [x₁]) ∧
      t₂.OutputBy E ans start gs bs eq off Out C Fg (Ls ++ [L]) (Rs ++ [R]) (xs ++ [x₂]) ∧
      t₃.OutputBy E ans start gs bs eq off Out C Fg (Ls ++ [L]) (Rs ++ [R]) (xs ++ [x₃])

/-- The same for quadratic proofs. -/
def QuadOutput (E : Env F G) (ans : ℕ → Ω → Bytes) (start : List Entry) (gs hs : List G) (eq : F)
    (uoff voff : Option (List F)) (Out : (Query → Ω) → QuadPf F G → Prop) (C Fg : G) (Ls Rs : List G) (xs : List F) (S1 S2 : G)
    (x a b r : F) : Prop :=
  ∃ (H : Query → Ω) (tag : Bytes) (st' : List Entry), Out H ⟨tag, C, Ls, Rs, S1, S2, a, b, r⟩ ∧
    (deriveQuad (oracleEnv E ans H) ⟨tag, C, Ls, Rs, S1, S2, a, b, r⟩ gs.length start).Fg = Fg ∧
    (deriveQuad (oracleEnv E ans H) ⟨tag, C, Ls, Rs, S1, S2, a, b, r⟩ gs.length start).xs = xs ∧
    (deriveQuad (oracleEnv E ans H) ⟨tag, C, Ls, Rs, S1, S2, a, b, r⟩ gs.length start).x = x ∧
    verifyQuadratic (oracleEnv E ans H) ⟨tag, C, Ls, Rs, S1, S2, a, b, r⟩ gs hs gs.length eq start uoff voff = .ok (true, st')

/-- Every conversation in the tree is an accepted output. -/
def QuadTree.OutputBy (E : Env F G) (ans : ℕ → Ω → Bytes) (start : List Entry) (gs hs : List G) (eq : F)
    (uoff voff : Option (List F)) (Out : (Query → Ω) → QuadPf F G → Prop) (C Fg : G) :
    QuadTree F G → List G → List G → List F → Prop
  | .leaf S1 S2 x a b r, Ls, Rs, xs =>
      ∀ i, QuadOutput E ans start gs hs eq uoff voff Out C Fg Ls Rs xs S1 S2 (x i) (a i) (b i) (r i)
  | .node L R x t, Ls, Rs, xs =>
      ∀ i, (t i).OutputBy E ans start gs hs eq uoff voff Out C Fg (Ls ++ [L]) (Rs ++ [R]) (xs ++ [x i])

end

end Verif.Spec
