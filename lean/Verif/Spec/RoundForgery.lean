/-
A prover that cheats in the final proofs of a round.
-/
import Verif.Model.VerifierSide
import Verif.Spec.Forgery

namespace Verif.Spec
section
variable {F G : Type} [Field F] [AddCommGroup G] [Module F G] [DecidableEq F] [DecidableEq G]

/-- The cheating prover of the two final proofs: `v` is the flattened public statement, `merL`, `merQ` the two
transcripts.  The linear proof is made honestly from the values `xs`; the quadratic proof is forged
(`forgeQuad`) from the values `as`, `bs`, whatever their inner product is. -/
def cheat (E : Env F G) (coinsL coinsQ : ℕ → F × F) (v : ReadyToVerify F G) (merL merQ : E.St) (rL rQ : F)
    (xs as bs : List F) : Res (LinPf F G × QuadPf F G) := do
  let (pfL, _) ← proveLinear E coinsL ⟨str "Linear", v.linCom, [], [], 0, 0, 0⟩ rL merL xs v.linStmnt v.linGs
    v.linGs.length
  let (pfQ, _) ← forgeQuad E coinsQ ⟨str "Quadratic", v.quadCom, [], [], 0, 0, 0, 0, 0⟩ rQ merQ v.quadGs as
    v.quadHs bs v.quadGs.length 1 (v.quadCnstr.equalsTo - dot as bs)
  .ok (pfL, pfQ)

/-- The folding challenges that the cheating prover meets. -/
def cheatChallenges (E : Env F G) (coinsL coinsQ : ℕ → F × F) (v : ReadyToVerify F G) (merL merQ : E.St)
    (xs as bs : List F) : List F :=
  linChallenges E coinsL v.linCom merL xs v.linStmnt v.linGs v.linGs.length ++
    forgeChallenges E coinsQ v.quadCom merQ v.quadGs as v.quadHs bs v.quadGs.length 1
      (v.quadCnstr.equalsTo - dot as bs)

end
end Verif.Spec
