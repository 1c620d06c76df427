/-
What the functions that record the Regev proofs rely on: sizes, the layout of the variables, the
parameters.
-/
import Verif.Spec.RegevProofs
import Verif.Model.RegevProofs

namespace Verif.Spec
open Regev

variable {q : ℕ} [Fact q.Prime] {G : Type}

/-- The bound of norm constraint `k`, in the order of the blocks of variables: high and low digits
of the decryption noise, encryption randomness, digits of the two encryption noises, the new secret
key, digits of the key-generation noise. -/
def normBound (P : Params q) (k : ℕ) : ℤ :=
  [hiBound P P.B_dNoise (P.gk.kay * 2), loBound P, P.B_r, hiBound P P.B_eNoise1 (P.gk.kay * 2),
   loBound P, hiBound P P.B_eNoise2 (P.gk.enn * 2), loBound P, P.B_sk,
   hiBound P P.B_kNoise (P.gk.kay * 2), loBound P].getD k 0

/-- The public parameters: nonempty dimensions, matrices of the right shape, a positive radix, norm
bounds that are small compared with the field and with the 32 bytes of a scalar. -/
structure ParamsOk (P : Params q) : Prop where
  kay : 0 < P.gk.kay
  enn : 0 < P.gk.enn
  tee : 0 < P.gk.tee
  A : HasShape P.gk.A P.gk.kay P.gk.kay
  B : HasShape P.gk.B P.gk.enn P.gk.kay
  radix : 1 ≤ P.radix
  small : ∀ k < 10, 2 * |normBound P k| < q ∧ normBound P k ^ 2 < 2 ^ 256

/-- The state of the verifier's and the prover's data before and after each of the functions: the
layout of the variables, enough generators and constraints; the index set of a norm constraint has
never been given an index outside its block; the witnesses are maps. -/
structure Setup {St : Type} (P : Params q) (vd : VerifierData (ZMod q) G St)
    (pd : ProverData (ZMod q)) : Prop where
  layout : IsLayout vd.ix P.gk.kay 2 P.gk.enn P.gk.tee
  small : vd.ix.w < 2 ^ 31
  gs : vd.Gs.length = vd.ix.w + 1
  hs : 260 * 10 ≤ vd.Hs.length
  lin : 14 ≤ vd.linConstr.length
  normLength : vd.normConstr.length = 10
  norm : ∀ k c, vd.normConstr[k]? = some c → SortedSet c.indexes ∧
    ∀ j ∈ c.indexes, 260 * k ≤ j ∧ j < 260 * k + 260
  compressed : pd.compressed.length = 1300
  linWitness : Sorted pd.linWitness
  quadWitness : Sorted pd.quadWitnessG

/-- The norm constraint of block `k` is recorded with its bound. -/
def NormRecorded (P : Params q) (norm : List (QuadConstraint (ZMod q))) (k : ℕ) : Prop :=
  norm[k]? = some ⟨List.range' (260 * k) 260, ((normBound P k ^ 2 : ℤ) : ZMod q)⟩

/-- The four-square search reported a failure when the vector of block `k` was padded. -/
def PadFailed (P : Params q) (tests : ℕ → Tests) (x : ℕ → ZMod q) (k : ℕ) : Prop :=
  FourSq.decompose4 (tests k).single (tests k).probPrime
    (normBound P k ^ 2 - normSq ((List.range' (260 * k) 256).map x)) = .ok [-1, -1, -1, -1]

/-- The values of block `k` have squared norm exactly the square of the bound, as integers. -/
def NormExact (P : Params q) (x : ℕ → ZMod q) (k : ℕ) : Prop :=
  normSq ((List.range' (260 * k) 260).map x) = normBound P k ^ 2

/-- The left-hand sides of constraints `s` and `s+1` as one ring element. -/
def slotLhs (cs : List (LinConstraint (ZMod q))) (s : ℕ) (x : ℕ → ZMod q) : Elt (ZMod q) 2 :=
  ⟨fun i => linLhs (cs.getD (s + i) ⟨[], 0⟩) x⟩

/-- Constraints `s` and `s+1` are sorted and mention only variables below `w`. -/
def SlotOk (cs : List (LinConstraint (ZMod q))) (s w : ℕ) : Prop :=
  ∀ i : Fin 2, Sorted (cs.getD (s + i) ⟨[], 0⟩).terms ∧ ∀ k ∈ keys (cs.getD (s + i) ⟨[], 0⟩).terms, k < w

/-- Everything recorded about block `k` (a compressed vector and its padding, 260 variables) for the
assignment `x`: the norm constraint; the values have that norm exactly, unless the four-square search
failed, and then their squared norm is at most 4 above that of the bound; they are in the witness of the quadratic statement and in the vector for the smallness proof. -/
structure BlockRecorded {St : Type} (P : Params q) (tests : ℕ → Tests) (vd : VerifierData (ZMod q) G St)
    (pd : ProverData (ZMod q)) (x : ℕ → ZMod q) (k : ℕ) : Prop where
  norm : NormRecorded P vd.normConstr k
  exact : NormExact P x k ∨ PadFailed P tests x k
  size : normSq ((List.range' (260 * k) 260).map x) ≤ normBound P k ^ 2 + 4
  quad : ∀ j < 260, coef pd.quadWitnessG (260 * k + j) = x (260 * k + j)
  compressed : ∀ j < 130, pd.compressed[130 * k + j]? = some (eltAt x (260 * k) j)

/-- Only the constraints in `slots` (each slot is two linear constraints) and the norm constraints in
`blocks` have changed; generators and indexes are the same. -/
structure OnlyChanged {St : Type} (vd vd' : VerifierData (ZMod q) G St) (slots blocks : List ℕ) : Prop where
  ix : vd'.ix = vd.ix
  Gs : vd'.Gs = vd.Gs
  Hs : vd'.Hs = vd.Hs
  z : vd'.z = vd.z
  lin : ∀ i, (∀ s ∈ slots, i ≠ s ∧ i ≠ s + 1) → vd'.linConstr[i]? = vd.linConstr[i]?
  norm : ∀ k, k ∉ blocks → vd'.normConstr[k]? = vd.normConstr[k]?

/-! ### The relations that are proved -/

section
variable {q : ℕ} [Fact q.Prime]

/-- Ciphertext `i` decrypts to `ptxt_i`: `ctVec_i = Σ_k sk_k·ctMat_{k,i} + ptxt_i·g + noise_i`. -/
def Decrypts (delta kay tee : ℕ) (ctMat : EMat q 2) (ctVec : EVec q 2) (ptxt : List (ZMod q))
    (skey noise : EVec q 2) : Prop :=
  ∀ i < tee, ctVec.getD i 0 = (∑ k ∈ Finset.range kay, skey.getD k 0 * entry ctMat k i) +
    ptxt.getD i 0 • g q 2 delta + noise.getD i 0

/-- First part of a ciphertext: `ct1 = A·r + noise1`. -/
def Encrypts1 (kay : ℕ) (A : EMat q 2) (ct1 rnd noise1 : EVec q 2) : Prop :=
  ∀ i < kay, ct1.getD i 0 = (∑ k ∈ Finset.range kay, entry A i k * rnd.getD k 0) + noise1.getD i 0

/-- Second part of a ciphertext: `ct2 = B·r + ptxt·g + noise2`. -/
def Encrypts2 (delta kay enn : ℕ) (B : EMat q 2) (ct2 : EVec q 2) (ptxt : List (ZMod q))
    (rnd noise2 : EVec q 2) : Prop :=
  ∀ i < enn, ct2.getD i 0 = (∑ k ∈ Finset.range kay, entry B i k * rnd.getD k 0) +
    ptxt.getD i 0 • g q 2 delta + noise2.getD i 0

/-- A public key: `pk = sk·A + noise`. -/
def KeyFor (kay : ℕ) (A : EMat q 2) (pk skey noise : EVec q 2) : Prop :=
  ∀ i < kay, pk.getD i 0 = (∑ k ∈ Finset.range kay, skey.getD k 0 * entry A k i) + noise.getD i 0

end

/-! ### When the functions return -/

section
variable {q : ℕ} [Fact q.Prime]

/-- The product of a vector of `n` elements with a matrix with `m` columns. -/
noncomputable def compressLeft (n m : ℕ) (v : EVec q 2) (ρ : ℕ → ℕ → Elt (ZMod q) 2) : EVec q 2 :=
  (List.range m).map fun j => ∑ i ∈ Finset.range n, v.getD i 0 * ρ i j

/-- The product of a matrix with `n` rows with a vector of `m` elements. -/
noncomputable def compressRight (n m : ℕ) (ρ : ℕ → ℕ → Elt (ZMod q) 2) (v : EVec q 2) : EVec q 2 :=
  (List.range n).map fun i => ∑ j ∈ Finset.range m, ρ i j * v.getD j 0

/-- The sum of the absolute values of the coefficients of a vector. -/
def l1 (v : EVec q 2) : ℤ := ((coeffs v).map fun s => |s.valMinAbs|).sum

/-- The squared norm of a vector is within the bound of block `k`. -/
def Fits (P : Params q) (k : ℕ) (v : EVec q 2) : Prop := normSq (coeffs v) ≤ normBound P k ^ 2

end

/-! ### The challenges, as functions of the transcript and the public commitments -/

section
variable [AddCommGroup G] [Module (ZMod q) G]

/-- The transcript after absorbing labelled points. -/
def absorb (E : Env (ZMod q) G) (st : E.St) (L : List (String × G)) : E.St :=
  L.foldl (fun st p => E.processPoint st (str p.1) p.2) st

/-- A challenge matrix with `n` rows and `m` columns (one byte for every four entries and
coefficient), and the transcript after it. -/
def matrixFrom (E : Env (ZMod q) G) (st : E.St) (label : String) (n m : ℕ) :
    (ℕ → ℕ → Elt (ZMod q) 2) × E.St :=
  (ternaryOf (E.challenge st (str label) (2 * ((n * m + 3) / 4))).1 n m,
   (E.challenge st (str label) (2 * ((n * m + 3) / 4))).2)

/-- A challenge element, and the transcript after it. -/
def elementFrom (E : Env (ZMod q) G) (st : E.St) (label : String) : Elt (ZMod q) 2 × E.St :=
  (elementOf (E.challenge st (str label) 64).1, (E.challenge st (str label) 64).2)

/-- The challenges of the decryption proof (matrix and element) and the transcript after it. -/
def decChallenges (E : Env (ZMod q) G) (st : E.St) (tee : ℕ) (com : Blocks G) :
    (ℕ → ℕ → Elt (ZMod q) 2) × Elt (ZMod q) 2 × E.St :=
  let m := matrixFrom E (absorb E st [("RegevDecPtxt", com.pt1)]) "RegevDecX" tee 128
  let e := elementFrom E (absorb E m.2 [("RegevDecCompHi", com.dCompHi), ("RegevDecPadHi", com.dPadHi),
    ("RegevDecCompLo", com.dCompLo), ("RegevDecPadLo", com.dPadLo)]) "RegevDec"
  (m.1, e)

/-- The challenges of the encryption proof (three matrices, three elements) and the transcript after it. -/
structure EncChallenges (q : ℕ) (St : Type) where
  R1 : ℕ → ℕ → Elt (ZMod q) 2
  R2 : ℕ → ℕ → Elt (ZMod q) 2
  R3 : ℕ → ℕ → Elt (ZMod q) 2
  x1 : Elt (ZMod q) 2
  x2 : Elt (ZMod q) 2
  x3 : Elt (ZMod q) 2
  st : St

/-- see `EncChallenges` -/
def encChallenges (E : Env (ZMod q) G) (st : E.St) (kay enn : ℕ) (com : Blocks G) : EncChallenges q E.St :=
  let m1 := matrixFrom E (absorb E st [("RegevEncPtxt", com.pt2), ("RegevEncRnd", com.r)]) "RegevEncR1" 128 kay
  let m2 := matrixFrom E m1.2 "RegevEncR2" 128 enn
  let m3 := matrixFrom E m2.2 "RegevEncR3" 128 kay
  let e1 := elementFrom E (absorb E m3.2 [("RegevEncR", com.rComp), ("", com.rPad),
    ("RegevEnc1Hi", com.eComp1Hi), ("", com.ePad1Hi), ("RegevEnc1Lo", com.eComp1Lo), ("", com.ePad1Lo),
    ("RegevEnc2Hi", com.eComp2Hi), ("", com.ePad2Hi), ("RegevEnc2Lo", com.eComp2Lo), ("", com.ePad2Lo)])
    "RegevEncChallenge1"
  let e2 := elementFrom E e1.2 "RegevEncChallenge2"
  let e3 := elementFrom E e2.2 "RegevEncChallenge3"
  ⟨m1.1, m2.1, m3.1, e1.1, e2.1, e3.1, e3.2⟩

/-- The challenges of the key-generation proof (two matrices, two elements) and the transcript after it. -/
structure KeyChallenges (q : ℕ) (St : Type) where
  R1 : ℕ → ℕ → Elt (ZMod q) 2
  R2 : ℕ → ℕ → Elt (ZMod q) 2
  x1 : Elt (ZMod q) 2
  x2 : Elt (ZMod q) 2
  st : St

/-- see `KeyChallenges` -/
def keyChallenges (E : Env (ZMod q) G) (st : E.St) (kay : ℕ) (com : Blocks G) : KeyChallenges q E.St :=
  let m1 := matrixFrom E (absorb E st [("RegevSK", com.sk2)]) "RegevKeyGenR1" kay 128
  let m2 := matrixFrom E m1.2 "RegevKeyGenR2" kay 128
  let e1 := elementFrom E (absorb E m2.2 [("RegevKeyGenSK", com.sk2Comp), ("", com.sk2Pad),
    ("RegevKGHi", com.kCompHi), ("", com.kPadHi), ("RegevKGHi", com.kCompLo), ("", com.kPadLo)])
    "RegevKGChallenge1"
  let e2 := elementFrom E e1.2 "RegevKGChallenge2"
  ⟨m1.1, m2.1, e1.1, e2.1, e2.2⟩

/-- The transcript after absorbing every element of the masked reply, the first under a label. -/
def absorbReply (E : Env (ZMod q) G) (st : E.St) (z : EVec q 2) : E.St :=
  z.zipIdx.foldl (fun st e => E.commit st (if e.2 = 0 then str "masked reply" else []) (Sc.elementBytes e.1 64)) st

/-- The challenges of the smallness proof (matrix and element) and the transcript after it; `z` is the
masked reply. -/
def smallChallenges (E : Env (ZMod q) G) (st : E.St) (com : Blocks G) (z : EVec q 2) :
    (ℕ → ℕ → Elt (ZMod q) 2) × Elt (ZMod q) 2 × E.St :=
  let m := matrixFrom E (absorb E st [("smallnessPf", com.y)]) "Smallness" 1300 64
  (m.1, elementFrom E (absorbReply E m.2 z) "SmallnessChallenge")

/-- The mask of trial `i` of the smallness proof. -/
def smallMask (P : Params q) (rnd : ℕ → SmallRnd q) (i : ℕ) : EVec q 2 :=
  (List.range 64).map fun j => boundedElement P.smlnsBits ((rnd i).y j)

/-- Trial `i` of the smallness proof is accepted: the product of the vector with the challenge matrix
that follows from the commitment to the mask is small, with and without the mask. -/
def SmallAccepted (E : Env (ZMod q) G) (P : Params q) (st : E.St) (ix : Indexes) (Gs : List G)
    (compressed : EVec q 2) (rnd : ℕ → SmallRnd q) (i : ℕ) : Prop :=
  let y := smallMask P rnd i
  let com := (rnd i).r • E.base + mexp (coeffs y) (Gs.drop ix.y)
  let u := compressLeft 1300 64 compressed (matrixFrom E (absorb E st [("smallnessPf", com)]) "Smallness" 1300 64).1
  (∀ s ∈ coeffs u, |s.valMinAbs| ≤ P.B_smallness.fdiv 128) ∧
    ∀ s ∈ coeffs (List.zipWith (· + ·) u y), |s.valMinAbs| ≤ P.B_smallness

end
end Verif.Spec
