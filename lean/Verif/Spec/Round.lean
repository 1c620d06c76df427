/-
Specification vocabulary for complete rounds of proofs.
-/
import Verif.Spec.RegevSetup
import Verif.Spec.Shamir
import Verif.Spec.FourSquares
import Verif.Model.Driver

namespace Verif.Spec
open Regev
open scoped BigOperators

variable {q : ℕ} [Fact q.Prime]

/-- The inputs of a round are those of an honest party: everything has its length, the ciphertexts
decrypt to `pt1` with key `sk1`, the new ciphertext encrypts `pt2`, the new public key belongs to `sk2`, and
`pt2` with the secret reconstructed from `pt1` in front passes the parity checks. -/
structure Honest (P : Params q) (inp : RoundInput q) : Prop where
  ctMat : HasShape inp.ctMat P.gk.kay P.gk.tee
  ctVec : inp.ctVec.length = P.gk.tee
  pt1 : inp.pt1.length = P.gk.tee
  sk1 : inp.sk1.length = P.gk.kay
  decNoise : inp.decNoise.length = P.gk.tee
  decrypts : Decrypts P.delta P.gk.kay P.gk.tee inp.ctMat inp.ctVec inp.pt1 inp.sk1 inp.decNoise
  ct1 : inp.ct1.length = P.gk.kay
  ct2 : inp.ct2.length = P.gk.enn
  pt2 : inp.pt2.length = P.gk.enn
  encRnd : inp.encRnd.length = P.gk.kay
  encNoise1 : inp.encNoise1.length = P.gk.kay
  encNoise2 : inp.encNoise2.length = P.gk.enn
  encrypts1 : Encrypts1 P.gk.kay P.gk.A inp.ct1 inp.encRnd inp.encNoise1
  encrypts2 : Encrypts2 P.delta P.gk.kay P.gk.enn P.gk.B inp.ct2 inp.pt2 inp.encRnd inp.encNoise2
  sk2 : inp.sk2.length = P.gk.kay
  keyNoise : inp.keyNoise.length = P.gk.kay
  keyFor : KeyFor P.gk.kay P.gk.A (P.gk.B.getD inp.pkNum []) inp.sk2 inp.keyNoise
  reshares : ∀ y ∈ matVec P.H ((∑ i ∈ Finset.range P.gk.tee, inp.lagrange.getD i 0 * inp.pt1.getD i 0)
    :: inp.pt2), y = 0

variable {G : Type} [AddCommGroup G] [Module (ZMod q) G]

/-- The state at the start of a round of a party whose secret key is `sk`: no constraints, the key
committed to at the place of the old key, nothing in the witnesses outside the variables. -/
structure Start (E : Env (ZMod q) G) (P : Params q) (sk : EVec q 2) (vd : VerifierData (ZMod q) G E.St)
    (pd : ProverData (ZMod q)) : Prop where
  setup : Setup P vd pd
  linEmpty : ∀ c ∈ vd.linConstr, c = ⟨[], 0⟩
  linKeys : ∀ k ∈ keys pd.linWitness, k < vd.ix.w
  quadKeys : ∀ k ∈ keys pd.quadWitnessG, k < 260 * 10
  keyLength : sk.length = P.gk.kay
  key : vd.com.sk1 = pd.rnd.sk1 • E.base + mexp (coeffs sk) (vd.Gs.drop vd.ix.sk1)

/-- The states a party can be in at the start of a round, after any number of honest rounds, together with
its secret key: it starts from the constructors and a commitment to the key; each round is recorded,
aggregated and flattened, and the next one prepared.  All coins, test outcomes and inputs are arbitrary,
and so are the public parameters and keys `P'` of each round, except for the dimensions. -/
inductive Reachable (E : Env (ZMod q) G) (P : Params q) :
    EVec q 2 → VerifierData (ZMod q) G E.St → ProverData (ZMod q) → Prop
  | start (getG getH : ℕ → G) (mer : E.St) (rnd : Blocks (ZMod q)) (sk : EVec q 2) (r : ZMod q)
      (vd vd' : VerifierData (ZMod q) G E.St) (pd' : ProverData (ZMod q)) :
      sk.length = P.gk.kay → newVerifierData getG getH P mer = .ok vd →
      commitKey E sk r vd (newProverData rnd) = .ok (vd', pd') → Reachable E P sk vd' pd'
  | round (sk : EVec q 2) (vd vd1 vd2 : VerifierData (ZMod q) G E.St) (pd pd1 pd2 : ProverData (ZMod q))
      (fresh : Blocks (ZMod q)) (tests : ℕ → Tests) (small : ℕ → SmallRnd q) (inp : RoundInput q)
      (tie : List (CompIter (ZMod q)) → ℕ) (wRnd : ZMod q) (v : ReadyToProve (ZMod q) G) (P' : Params q) :
      Reachable E P sk vd pd → P'.gk.kay = P.gk.kay → P'.gk.enn = P.gk.enn → P'.gk.tee = P.gk.tee →
      ParamsOk P' → (∀ k, NoFalsePrimes (tests k).probPrime) → Honest P' inp → inp.sk1 = sk →
      proveRound E P' fresh tests small inp vd pd = .ok (vd1, pd1) →
      nextRound E tie wRnd v vd1 pd1 = .ok (vd2, pd2) → Reachable E P inp.sk2 vd2 pd2

end Verif.Spec
