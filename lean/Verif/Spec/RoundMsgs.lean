/-
What a round of proofs hashes, message by message, independent of the code.
-/
import Verif.Spec.Library
import Verif.Spec.KeyHash
import Verif.Spec.RoundSound

namespace Verif.Spec
open Verif Verif.Merlin Regev

variable {q : ℕ} {G : Type}

/-- The bytes of a challenge matrix: one byte for every four entries, for each of the two coefficients. -/
def matrixBytes (n m : ℕ) : ℕ := 2 * ((n * m + 3) / 4)

/-- The messages of the decryption proof; requests 0 and 1 of a round. -/
def decMsgs (pb : G → Bytes) (tee : ℕ) (com : Blocks G) : List TOp :=
  [.commit (str "RegevDecPtxt") (pb com.pt1),
   .challenge (str "RegevDecX") (matrixBytes tee 128),
   .commit (str "RegevDecCompHi") (pb com.dCompHi), .commit (str "RegevDecPadHi") (pb com.dPadHi),
   .commit (str "RegevDecCompLo") (pb com.dCompLo), .commit (str "RegevDecPadLo") (pb com.dPadLo),
   .challenge (str "RegevDec") 64]

/-- The messages of the encryption proof; requests 2 to 7 of a round. -/
def encMsgs (pb : G → Bytes) (kay enn : ℕ) (com : Blocks G) : List TOp :=
  [.commit (str "RegevEncPtxt") (pb com.pt2), .commit (str "RegevEncRnd") (pb com.r),
   .challenge (str "RegevEncR1") (matrixBytes 128 kay),
   .challenge (str "RegevEncR2") (matrixBytes 128 enn),
   .challenge (str "RegevEncR3") (matrixBytes 128 kay),
   .commit (str "RegevEncR") (pb com.rComp), .commit [] (pb com.rPad),
   .commit (str "RegevEnc1Hi") (pb com.eComp1Hi), .commit [] (pb com.ePad1Hi),
   .commit (str "RegevEnc1Lo") (pb com.eComp1Lo), .commit [] (pb com.ePad1Lo),
   .commit (str "RegevEnc2Hi") (pb com.eComp2Hi), .commit [] (pb com.ePad2Hi),
   .commit (str "RegevEnc2Lo") (pb com.eComp2Lo), .commit [] (pb com.ePad2Lo),
   .challenge (str "RegevEncChallenge1") 64, .challenge (str "RegevEncChallenge2") 64,
   .challenge (str "RegevEncChallenge3") 64]

/-- The messages of the key-generation proof; requests 8 to 11 of a round. -/
def keyMsgs (pb : G → Bytes) (kay : ℕ) (com : Blocks G) : List TOp :=
  [.commit (str "RegevSK") (pb com.sk2),
   .challenge (str "RegevKeyGenR1") (matrixBytes kay 128),
   .challenge (str "RegevKeyGenR2") (matrixBytes kay 128),
   .commit (str "RegevKeyGenSK") (pb com.sk2Comp), .commit [] (pb com.sk2Pad),
   .commit (str "RegevKGHi") (pb com.kCompHi), .commit [] (pb com.kPadHi),
   .commit (str "RegevKGHi") (pb com.kCompLo), .commit [] (pb com.kPadLo),
   .challenge (str "RegevKGChallenge1") 64, .challenge (str "RegevKGChallenge2") 64]

/-- The masked reply: 64 bytes for each element, the first under a label, the others without. -/
def replyMsgs (z : EVec q 2) : List TOp :=
  z.zipIdx.map fun e => .commit (if e.2 = 0 then str "masked reply" else [])
    (le32 (e.1.c 0).val ++ le32 (e.1.c 1).val)

/-- The messages of the smallness proof; requests 12 and 13 of a round. -/
def smallMsgs (pb : G → Bytes) (com : Blocks G) (z : EVec q 2) : List TOp :=
  [.commit (str "smallnessPf") (pb com.y), .challenge (str "Smallness") (matrixBytes 1300 64)] ++
    replyMsgs z ++ [.challenge (str "SmallnessChallenge") 64]

/-- The messages of a round.  (Resharing sends none.) -/
def roundMsgs (pb : G → Bytes) (kay enn tee : ℕ) (com : Blocks G) (z : EVec q 2) : List TOp :=
  decMsgs pb tee com ++ (encMsgs pb kay enn com ++ (keyMsgs pb kay com ++ smallMsgs pb com z))

/-- The messages of the aggregation; requests 14 to 17 of a round. -/
def aggregateMsgs : List TOp :=
  [.challenge (str "aggregateLinear") 64, .challenge (str "aggregateNorms") 64,
   .challenge (str "enforceNorm") 64, .challenge (str "separareLinQuad") 64]

/-- The messages of complete rounds, one after the other; the final proofs work on copies of the transcript. -/
def historyMsgs (pb : G → Bytes) (kay enn tee : ℕ) (rs : List (Blocks G × EVec q 2)) : List TOp :=
  rs.flatMap fun r => roundMsgs pb kay enn tee r.1 r.2 ++ aggregateMsgs

/-- The commitments that precede request `j` of a round. -/
def sentBefore (j : ℕ) (com : Blocks G) : List G :=
  [com.pt1] ++
  (if 1 ≤ j then [com.dCompHi, com.dPadHi, com.dCompLo, com.dPadLo] else []) ++
  (if 2 ≤ j then [com.pt2, com.r] else []) ++
  (if 5 ≤ j then [com.rComp, com.rPad, com.eComp1Hi, com.ePad1Hi, com.eComp1Lo, com.ePad1Lo,
    com.eComp2Hi, com.ePad2Hi, com.eComp2Lo, com.ePad2Lo] else []) ++
  (if 8 ≤ j then [com.sk2] else []) ++
  (if 10 ≤ j then [com.sk2Comp, com.sk2Pad, com.kCompHi, com.kPadHi, com.kCompLo, com.kPadLo] else []) ++
  (if 12 ≤ j then [com.y] else [])

end Verif.Spec
