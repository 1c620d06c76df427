/-
Vocabulary for what can and cannot be proved with responses of `2^255` or more.
-/
import Verif.Spec.ProofBytes
import Verif.Spec.Soundness
import Verif.Props.ScalarField
import Verif.Model.TagBytes

namespace Verif.Spec
open Verif.Sc Verif.Props

/-- `c` added to the first entry. -/
def addFirst {F : Type} [Add F] (c : F) : List F → List F
  | [] => []
  | a :: as => (a + c) :: as

/-- 32 bytes that stand for the residue `x`, with the top bit as wanted. -/
def EncodesTop (b : Bytes) (x : ZMod order) (top : Bool) : Prop :=
  b.length = 32 ∧ ((number b : ℕ) : ZMod order) = x ∧ (top = true ↔ 2 ^ 255 ≤ number b)

/-- What the top bit is worth. -/
def topValue (top : Bool) : ZMod order := if top then 2 ^ 255 else 0

/-! ### Trees of conversations in bytes

As in `Verif.Spec.LinTree`, but everything the prover sends is bytes. -/

/-- What a prover of a linear statement does from some level on, on different challenges.
`node L R x t`: it sends `L` and `R`, and goes on as in `t i` on challenge `x i`.  `leaf S x a r`: it sends
`S` and answers challenge `x i` with `a i, r i`. -/
inductive LinTreeR where
  | leaf (S : Bytes) (x : Fin 3 → ZMod order) (a r : Fin 3 → Bytes)
  | node (L R : Bytes) (x : Fin 3 → ZMod order) (t : Fin 3 → LinTreeR)

section
variable {K G : Type} [AddCommGroup K] [DecidableEq G] [AddCommGroup G] [Module (ZMod order) G]

/-- `verifyLinear` accepts the bytes `(C, Ls, Rs, S, a, r)` for some behaviour of the hash functions with
which the hash values are `Fg`, `xs` and `x`. -/
def LinAcceptedR (Sd : Sodium) (enc : K → Bytes) (ι : G →+ K) (base : G) (gs : List G)
    (bs : List (ZMod order)) (eq : ZMod order) (off : Option (List (ZMod order))) (C : Bytes) (Fg : G)
    (Ls Rs : List Bytes) (xs : List (ZMod order)) (S : Bytes) (x : ZMod order) (a r : Bytes) : Prop :=
  a.length = 32 ∧ r.length = 32 ∧
  ∃ (E : Env (ZMod order) G) (tag : Bytes) (st st' : E.St), E.base = base ∧
    E.pointBytes = (fun g => enc (ι g)) ∧ (∀ x, IsScalar (E.scalarBytes x) x) ∧
    (deriveLinB E ⟨tag, C, Ls, Rs, S, 0, 0⟩ gs.length st).Fg = Fg ∧
    (deriveLinB E ⟨tag, C, Ls, Rs, S, 0, 0⟩ gs.length st).xs = xs ∧
    (deriveLinB E ⟨tag, C, Ls, Rs, S, 0, 0⟩ gs.length st).x = x ∧
    verifyLinearR E Sd ⟨tag, C, Ls, Rs, S, a, r⟩ bs (gs.map E.pointBytes) gs.length eq st off = .ok (true, st')

/-- All conversations in the tree are accepted, those before it being `Ls, Rs, xs`, and the challenges
at each place are distinct. -/
def LinTreeR.Accepted (Sd : Sodium) (enc : K → Bytes) (ι : G →+ K) (base : G) (gs : List G)
    (bs : List (ZMod order)) (eq : ZMod order) (off : Option (List (ZMod order))) (C : Bytes) (Fg : G) :
    LinTreeR → List Bytes → List Bytes → List (ZMod order) → Prop
  | .leaf S x a r, Ls, Rs, xs => Function.Injective x ∧
      ∀ i, LinAcceptedR Sd enc ι base gs bs eq off C Fg Ls Rs xs S (x i) (a i) (r i)
  | .node L R x t, Ls, Rs, xs => Function.Injective x ∧
      ∀ i, (t i).Accepted Sd enc ι base gs bs eq off C Fg (Ls ++ [L]) (Rs ++ [R]) (xs ++ [x i])

end

/-- The error in the answer `a` to the challenge `x`. -/
def answerErr (off : Option (List (ZMod order))) (x : ZMod order) (a : Bytes) : ZMod order :=
  firstErr a (off.map fun o => o.map (· * x))

/-- Two of three answers with the same error. -/
def samePair (off : Option (List (ZMod order))) (x : Fin 3 → ZMod order) (a : Fin 3 → Bytes) : Fin 3 × Fin 3 :=
  if answerErr off (x 0) (a 0) = answerErr off (x 1) (a 1) then (0, 1)
  else if answerErr off (x 0) (a 0) = answerErr off (x 2) (a 2) then (0, 2)
  else (1, 2)

/-- The challenges and answers of a tree (the points are left out), with two answers with the same error
at each leaf, `r` being read without its top bit. -/
def LinTreeR.answers (off : Option (List (ZMod order))) : LinTreeR → LinTree (ZMod order) Unit
  | .leaf _ x a r =>
    let i := (samePair off x a).1
    let j := (samePair off x a).2
    .leaf () (x i) ((number (a i) : ℕ) : ZMod order) ((number (r i) % 2 ^ 255 : ℕ) : ZMod order)
      (x j) ((number (a j) : ℕ) : ZMod order) ((number (r j) % 2 ^ 255 : ℕ) : ZMod order)
  | .node _ _ x t => .node () () (x 0) (x 1) (x 2) ((t 0).answers off) ((t 1).answers off) ((t 2).answers off)

/-- The same for quadratic statements. -/
inductive QuadTreeR where
  | leaf (S1 S2 : Bytes) (x : Fin 5 → ZMod order) (a b r : Fin 5 → Bytes)
  | node (L R : Bytes) (x : Fin 4 → ZMod order) (t : Fin 4 → QuadTreeR)

section
variable {K G : Type} [AddCommGroup K] [DecidableEq G] [AddCommGroup G] [Module (ZMod order) G]

/-- `verifyQuadratic` accepts the bytes `(C, Ls, Rs, S1, S2, a, b, r)` for some behaviour of the hash
functions with which the hash values are `Fg`, `xs` and `x`. -/
def QuadAcceptedR (Sd : Sodium) (enc : K → Bytes) (ι : G →+ K) (base : G) (gs hs : List G)
    (eq : ZMod order) (u v : Option (List (ZMod order))) (C : Bytes) (Fg : G) (Ls Rs : List Bytes)
    (xs : List (ZMod order)) (S1 S2 : Bytes) (x : ZMod order) (a b r : Bytes) : Prop :=
  a.length = 32 ∧ b.length = 32 ∧ r.length = 32 ∧
  ∃ (E : Env (ZMod order) G) (tag : Bytes) (st st' : E.St), E.base = base ∧
    E.pointBytes = (fun g => enc (ι g)) ∧ (∀ x, IsScalar (E.scalarBytes x) x) ∧
    (deriveQuadB E ⟨tag, C, Ls, Rs, S1, S2, 0, 0, 0⟩ gs.length st).Fg = Fg ∧
    (deriveQuadB E ⟨tag, C, Ls, Rs, S1, S2, 0, 0, 0⟩ gs.length st).xs = xs ∧
    (deriveQuadB E ⟨tag, C, Ls, Rs, S1, S2, 0, 0, 0⟩ gs.length st).x = x ∧
    verifyQuadraticR E Sd ⟨tag, C, Ls, Rs, S1, S2, a, b, r⟩ (gs.map E.pointBytes) (hs.map E.pointBytes)
      gs.length eq st u v = .ok (true, st')

/-- All conversations in the tree are accepted, the challenges at each place are distinct, and the errors
are `e` in all answers `a` and `e'` in all answers `b`. -/
def QuadTreeR.Accepted (Sd : Sodium) (enc : K → Bytes) (ι : G →+ K) (base : G) (gs hs : List G)
    (eq : ZMod order) (u v : Option (List (ZMod order))) (e e' : ZMod order) (C : Bytes) (Fg : G) :
    QuadTreeR → List Bytes → List Bytes → List (ZMod order) → Prop
  | .leaf S1 S2 x a b r, Ls, Rs, xs => Function.Injective x ∧
      ∀ i, firstErr (a i) u = e ∧ firstErr (b i) v = e' ∧
        QuadAcceptedR Sd enc ι base gs hs eq u v C Fg Ls Rs xs S1 S2 (x i) (a i) (b i) (r i)
  | .node L R x t, Ls, Rs, xs => Function.Injective x ∧
      ∀ i, (t i).Accepted Sd enc ι base gs hs eq u v e e' C Fg (Ls ++ [L]) (Rs ++ [R]) (xs ++ [x i])

end

/-- The challenges and answers of a tree. -/
def QuadTreeR.answers : QuadTreeR → QuadTree (ZMod order) Unit
  | .leaf _ _ x a b r => .leaf () () x (fun i => ((number (a i) : ℕ) : ZMod order))
      (fun i => ((number (b i) : ℕ) : ZMod order)) (fun i => ((number (r i) % 2 ^ 255 : ℕ) : ZMod order))
  | .node _ _ x t => .node () () x fun i => (t i).answers

end Verif.Spec
