/-
Model of the code that strings the Regev proofs together: the constructors of `VerifierData` and
`ProverData` (/repo/src/regev/regevProofs-utils.cpp:111-184, /repo/include/regevProofs.hpp:278-282), one
round of proving (/repo/src/main.cpp:151-190), and the preparation of the next round
(/repo/include/regevProofs.hpp:225-245, 272-276).
-/
import Verif.Model.RegevProofs
import Verif.Model.Protocol

namespace Verif
open Regev

noncomputable section
variable {q : ℕ} [Fact q.Prime] {G : Type} [AddCommGroup G] [Module (ZMod q) G]

/-- The constructor of `VerifierData`, regevProofs-utils.cpp:111-184, without the computation of the norm
bounds (lines 124-162, done in doubles; see Model/Bounds.lean, the results are in `Params`): the indexes, the generators, `7*ell+enn-tee+1`
empty linear constraints (an absurd size, for which `resize` throws, if that is negative) and ten empty
norm constraints.  The commitments start out as the identity. -/
def newVerifierData {St : Type} (getG getH : ℕ → G) (P : Params q) (mer : St) :
    Res (VerifierData (ZMod q) G St) := do
  let ix ← setIndexes P.gk.kay 2 P.gk.enn P.gk.tee
  let gens := computeGenerators getG getH ix
  if 7 * 2 + P.gk.enn + 1 < P.gk.tee then .throw else
    .ok { Gs := gens.1, Hs := gens.2, ix
          com := ⟨0, 0, 0, 0, 0, 0, 0, 0, 0, 0, 0, 0, 0, 0, 0, 0, 0, 0, 0, 0, 0, 0, 0, 0, 0, 0, 0⟩
          linConstr := List.replicate (7 * 2 + P.gk.enn + 1 - P.gk.tee) ⟨[], 0⟩
          normConstr := List.replicate 10 ⟨[], 0⟩
          z := [], mer }

/-- The constructor of `ProverData`, regevProofs.hpp:278-282: `compressed` gets its length, the witnesses
are empty.  The randomness is not initialised (`rnd` is arbitrary). -/
def newProverData (rnd : Blocks (ZMod q)) : ProverData (ZMod q) where
  rnd := rnd
  compressed := List.replicate (10 * (JLDIM + PAD_SIZE) / 2) 0
  linWitness := []
  quadWitnessG := []
  quadWitnessH := []

/-- The values that enter one round of proofs, main.cpp:100-161. -/
structure RoundInput (q : ℕ) where
  /-- first parts of the ciphertexts to be decrypted, as columns -/
  ctMat : EMat q 2
  /-- the party's entries of their second parts -/
  ctVec : EVec q 2
  /-- the decrypted plaintexts -/
  pt1 : List (ZMod q)
  /-- the party's secret key -/
  sk1 : EVec q 2
  decNoise : EVec q 2
  /-- the new ciphertext -/
  ct1 : EVec q 2
  ct2 : EVec q 2
  /-- its plaintexts -/
  pt2 : List (ZMod q)
  encRnd : EVec q 2
  encNoise1 : EVec q 2
  encNoise2 : EVec q 2
  /-- index of the party's new public key, and the corresponding secret key -/
  pkNum : ℕ
  sk2 : EVec q 2
  keyNoise : EVec q 2
  lagrange : List (ZMod q)

/-- main.cpp:151: `vd.sk1Com = commit(sk, vd.sk1Idx, vd.Gs, pd.sk1Rnd)`, with fresh randomness. -/
def commitKey (E : Env (ZMod q) G) (sk : EVec q 2) (r : ZMod q) (vd : VerifierData (ZMod q) G E.St)
    (pd : ProverData (ZMod q)) : Res (VerifierData (ZMod q) G E.St × ProverData (ZMod q)) := do
  let c ← commitE E.base sk vd.ix.sk1 vd.Gs r
  .ok ({ vd with com := { vd.com with sk1 := c } }, { pd with rnd := { pd.rnd with sk1 := r } })

/-- main.cpp:157-161: the five functions that record the statement and the witness. -/
def proveRound (E : Env (ZMod q) G) (P : Params q) (fresh : Blocks (ZMod q)) (tests : ℕ → Tests)
    (small : ℕ → SmallRnd q) (inp : RoundInput q) (vd : VerifierData (ZMod q) G E.St)
    (pd : ProverData (ZMod q)) : Res (VerifierData (ZMod q) G E.St × ProverData (ZMod q)) := do
  let (vd, pd) ← proveDecryption E P fresh tests vd pd inp.ctMat inp.ctVec inp.pt1 inp.sk1 inp.decNoise
  let (vd, pd) ← proveEncryption E P fresh tests vd pd inp.ct1 inp.ct2 inp.pt2 inp.encRnd inp.encNoise1
    inp.encNoise2
  let (vd, pd) ← proveKeyGen E P fresh tests vd pd inp.pkNum inp.sk2 inp.keyNoise
  let (vd, pd) ← proveReShare P vd pd inp.lagrange inp.pt1 inp.pt2
  proveSmallness E P small vd pd

/-- `VerifierData::prepareForNextProof`, regevProofs.hpp:225-245. -/
def VerifierData.prepareForNextProof {St : Type} (vd : VerifierData (ZMod q) G St) :
    VerifierData (ZMod q) G St :=
  { vd with
    ix := vd.ix.swapSk
    com := ⟨0, 0, 0, 0, 0, 0, 0, 0, 0, 0, 0, 0, 0, 0, 0, 0, 0, 0, 0, 0, vd.com.sk2, 0, 0, 0, 0, 0, 0⟩
    linConstr := vd.linConstr.map fun _ => ⟨[], 0⟩
    normConstr := vd.normConstr.map fun _ => ⟨[], 0⟩ }

/-- `ProverData::prepareForNextProof`, regevProofs.hpp:272-276, on the prover's part. -/
def ProverData.prepareForNextProof (pd : ProverData (ZMod q)) : ProverData (ZMod q) :=
  { pd with rnd := { pd.rnd with sk1 := pd.rnd.sk2 } }

/-- The end of a round: main.cpp:175-176 and 189-190 (aggregation and flattening; the two final proofs that
are made from the result are `finalProve` in Model/Protocol.lean and do not touch the data), then
`prepareForNextProof`. -/
def nextRound (E : Env (ZMod q) G) (tie : List (CompIter (ZMod q)) → ℕ) (wRnd : ZMod q)
    (v : ReadyToProve (ZMod q) G) (vd : VerifierData (ZMod q) G E.St) (pd : ProverData (ZMod q)) :
    Res (VerifierData (ZMod q) G E.St × ProverData (ZMod q)) := do
  let (v, vd, pd) ← aggregateProver E tie wRnd v vd pd
  let (v, pd) ← flattenLinPrv v vd pd
  let (_, pd) ← flattenQuadPrv v vd pd
  .ok (vd.prepareForNextProof, pd.prepareForNextProof)

end
end Verif
