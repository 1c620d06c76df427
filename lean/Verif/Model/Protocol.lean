/-
Model of the driver code that uses the proofs: /repo/src/main.cpp:149-255 (the same sequence of
calls is in /repo/tests/test_regevProofs.cpp).  This file: the final part, proving and verifying the
two aggregated statements.  Timing and printing are left out.
-/
import Verif.Model.Aggregate
import Verif.Model.Bulletproof

namespace Verif
section
variable {F G : Type} [Field F] [DecidableEq F] [AddCommGroup G] [Module F G]

/-- main.cpp:180-197, 209-210 and 233-239: the transcripts are specialised by the two constraints,
the statements are flattened and the two proofs made.  `coinsL`, `coinsQ` are the random scalars
drawn by the two provers.  Returns the public part of the flattened statement, the transcript states
at the start of the two proofs, and the proofs. -/
def finalProve (E : Env F G) (coinsL coinsQ : ℕ → F × F) (v : ReadyToProve F G)
    (vd : VerifierData F G E.St) (pd : ProverData F) :
    Res (ReadyToVerify F G × E.St × E.St × LinPf F G × QuadPf F G) := do
  let merLin := E.processLin vd.mer (str "linear") v.linCnstr
  let merQuad := E.processQuad vd.mer (str "quadratic") v.quadCnstr
  let (v, pd) ← flattenLinPrv v vd pd
  let (v, _) ← flattenQuadPrv v vd pd
  let (pfL, _) ← proveLinear E coinsL ⟨str "Linear", v.linCom, [], [], 0, 0, 0⟩ v.lComRnd merLin
    v.linWtns v.linStmnt v.linGs v.linGs.length
  let (pfQ, _) ← proveQuadratic E coinsQ ⟨str "Quadratic", v.quadCom, [], [], 0, 0, 0, 0, 0⟩ v.qComRnd
    merQuad v.quadGs v.quadWtnsG v.quadHs v.quadWtnsH v.quadGs.length
  .ok (v.toReadyToVerify, merLin, merQuad, pfL, pfQ)

variable [DecidableEq G]

/-- main.cpp:220-221: verifying the linear proof. -/
def finalVerifyLin (E : Env F G) (v : ReadyToVerify F G) (merLin : E.St) (pfL : LinPf F G) :
    Res Bool := do
  let (b, _) ← verifyLinear E pfL v.linStmnt v.linGs v.linGs.length
    v.linCnstr.equalsTo merLin none
  .ok b

/-- main.cpp:250-252: verifying the quadratic proof, with the offsets. -/
def finalVerifyQuad (E : Env F G) (v : ReadyToVerify F G) (merQuad : E.St) (pfQ : QuadPf F G) :
    Res Bool := do
  let (b, _) ← verifyQuadratic E pfQ v.quadGs v.quadHs v.quadGs.length
    v.quadCnstr.equalsTo merQuad (some v.offstG) (some v.offstH)
  .ok b

end
end Verif
