/-
Specification vocabulary for what a round of proofs reveals (C88).
-/
import Verif.Spec.Round

namespace Verif.Spec
open Regev

variable {q : ℕ} [Fact q.Prime] {G : Type} [AddCommGroup G] [Module (ZMod q) G]

noncomputable section

/-- A round without its last step, main.cpp:157-160: `proveRound` is this followed by `proveSmallness`
(`proveRound_eq`). -/
def recordRound (E : Env (ZMod q) G) (P : Params q) (fresh : Blocks (ZMod q)) (tests : ℕ → Tests)
    (inp : RoundInput q) (vd : VerifierData (ZMod q) G E.St) (pd : ProverData (ZMod q)) :
    Res (VerifierData (ZMod q) G E.St × ProverData (ZMod q)) := do
  let (vd, pd) ← proveDecryption E P fresh tests vd pd inp.ctMat inp.ctVec inp.pt1 inp.sk1 inp.decNoise
  let (vd, pd) ← proveEncryption E P fresh tests vd pd inp.ct1 inp.ct2 inp.pt2 inp.encRnd inp.encNoise1
    inp.encNoise2
  let (vd, pd) ← proveKeyGen E P fresh tests vd pd inp.pkNum inp.sk2 inp.keyNoise
  proveReShare P vd pd inp.lagrange inp.pt1 inp.pt2

theorem proveRound_eq (E : Env (ZMod q) G) (P : Params q) (fresh : Blocks (ZMod q)) (tests : ℕ → Tests)
    (small : ℕ → SmallRnd q) (inp : RoundInput q) (vd : VerifierData (ZMod q) G E.St) (pd : ProverData (ZMod q)) :
    proveRound E P fresh tests small inp vd pd =
      (recordRound E P fresh tests inp vd pd).bind fun r => proveSmallness E P small r.1 r.2 := by
  unfold proveRound recordRound
  cases proveDecryption E P fresh tests vd pd inp.ctMat inp.ctVec inp.pt1 inp.sk1 inp.decNoise with
  | throw => rfl
  | ub => rfl
  | ok r =>
    show (proveEncryption E P fresh tests r.1 r.2 inp.ct1 inp.ct2 inp.pt2 inp.encRnd inp.encNoise1
      inp.encNoise2 >>= _) = ((proveEncryption E P fresh tests r.1 r.2 inp.ct1 inp.ct2 inp.pt2 inp.encRnd inp.encNoise1
      inp.encNoise2 >>= _).bind _)
    cases proveEncryption E P fresh tests r.1 r.2 inp.ct1 inp.ct2 inp.pt2 inp.encRnd inp.encNoise1
      inp.encNoise2 with
    | throw => rfl
    | ub => rfl
    | ok r =>
      show (proveKeyGen E P fresh tests r.1 r.2 inp.pkNum inp.sk2 inp.keyNoise >>= _) =
        ((proveKeyGen E P fresh tests r.1 r.2 inp.pkNum inp.sk2 inp.keyNoise >>= _).bind _)
      cases proveKeyGen E P fresh tests r.1 r.2 inp.pkNum inp.sk2 inp.keyNoise with
      | throw => rfl
      | ub => rfl
      | ok r => rfl

/-- Two records agree on the 24 blocks that a round commits to: all but the old key (committed to in the
previous round), the mask of the smallness proof and the extra variable of the aggregation. -/
def Same24 {α : Type} (a b : Blocks α) : Prop := a = { b with sk1 := a.sk1, y := a.y, w := a.w }

/-- Two parties make the same public statement: the same ciphertexts, number of the public key and
coefficients.  Plaintexts, keys, randomness and noises may differ. -/
structure SamePublic (inp inp' : RoundInput q) : Prop where
  ctMat : inp.ctMat = inp'.ctMat
  ctVec : inp.ctVec = inp'.ctVec
  ct1 : inp.ct1 = inp'.ct1
  ct2 : inp.ct2 = inp'.ct2
  pkNum : inp.pkNum = inp'.pkNum
  lagrange : inp.lagrange = inp'.lagrange

/-- The secrets of a party are so small that its compressed vectors fit their bounds, whatever the
challenges; and its public key and the coefficients exist. -/
structure FitsAlways (P : Params q) (inp : RoundInput q) : Prop where
  pkNum : inp.pkNum < P.gk.enn
  lagrange : inp.lagrange.length = P.gk.tee
  decNoise : 8 * (2 * l1 inp.decNoise + P.radix) ≤ P.radix * normBound P 0
  encRnd : 16 * l1 inp.encRnd ≤ normBound P 2
  encNoise1 : 8 * (2 * l1 inp.encNoise1 + P.radix) ≤ P.radix * normBound P 3
  encNoise2 : 8 * (2 * l1 inp.encNoise2 + P.radix) ≤ P.radix * normBound P 5
  sk2 : 16 * l1 inp.sk2 ≤ normBound P 7
  keyNoise : 8 * (2 * l1 inp.keyNoise + P.radix) ≤ P.radix * normBound P 8

end
end Verif.Spec
