/-
The public verification functions of /repo/include/bulletproof.hpp and of
/repo/src/dlproofs/bulletproof.cpp on a proof that is bytes throughout (see Model/ProofBytes.lean).
The generators come from the library, here in their encoding `E.pointBytes`.
-/
import Verif.Model.ProofBytes

namespace Verif
open Verif.Sc

section
variable {F G : Type} [Field F] [DecidableEq F]

/-- `verifyLinear(cnstr, proof)`, bulletproof.hpp:109-120. -/
def verifyLinearTagR (E : Env F G) (S : Sodium) (c : LinConstraint F) (pf : LinPfR) : Res Bool := do
  let st := E.processLin (E.newCtx pf.tag) lblConstraint c
  let fs ← mkFlatLin E pf.tag c []
  let (b, _) ← verifyLinearR E S pf fs.statement (fs.generators.map E.pointBytes) fs.generators.length
    fs.equalsTo st none
  .ok b

/-- `verifyQuadratic(cnstr, pf)`, bulletproof.hpp:191-201. -/
def verifyQuadraticTagR (E : Env F G) (S : Sodium) (c : QuadConstraint F) (pf : QuadPfR) : Res Bool := do
  let st := E.processQuad (E.newCtx pf.tag) lblConstraint c
  let fs ← mkFlatQuad E pf.tag c [] []
  let (b, _) ← verifyQuadraticR E S pf (fs.gs.map E.pointBytes) (fs.hs.map E.pointBytes) fs.gs.length
    fs.equalsTo st none none
  .ok b

/-- `verifyNormSquared`, bulletproof.cpp:440-465. -/
def verifyNormSquaredR (E : Env F G) (S : Sodium) (indexes : List Nat) (normSq : F) (pf : QuadPfR) :
    Res Bool := do
  let st := E.newCtx pf.tag
  let c : QuadConstraint F := ⟨indexes, normSq⟩
  let fs ← mkFlatQuad E pf.tag c [] []
  let st := E.processQuad st lblNorm c
  let (x, st) := E.newChallenge st lblx
  let x2 := x * x
  let eq := normShiftVer x2 indexes.length x2 fs.equalsTo
  let (b, _) ← verifyQuadraticR E S pf (fs.gs.map E.pointBytes) (fs.hs.map E.pointBytes) fs.gs.length
    eq st none none
  .ok b

end

end Verif
