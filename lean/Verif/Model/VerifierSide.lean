/-
What a verifier that is given the published values computes before it checks the final proofs.
-/
import Verif.Model.Protocol

namespace Verif
section
variable {F G : Type} [Field F] [DecidableEq F] [AddCommGroup G] [Module F G]

/-- The verifier's part of main.cpp:180-197, 209-210: the transcripts are specialised by the two
constraints and the public statement is flattened (regevProofs.cpp:1085-1111).  In main.cpp the verifier uses
the statement that the prover's object has flattened; here it does so itself. -/
def finalStatement (E : Env F G) (v : ReadyToVerify F G) (vd : VerifierData F G E.St) :
    Res (ReadyToVerify F G × E.St × E.St) := do
  let merLin := E.processLin vd.mer (str "linear") v.linCnstr
  let merQuad := E.processQuad vd.mer (str "quadratic") v.quadCnstr
  let v ← flattenLinVer v vd
  let v ← flattenQuadVer v vd
  .ok (v, merLin, merQuad)

end
end Verif
