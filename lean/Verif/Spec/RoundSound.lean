/-
Specification vocabulary for what the constraints of a complete round imply.
-/
import Verif.Spec.Round
import Verif.Spec.Batch
import Verif.Spec.Compress

namespace Verif.Spec
open Regev
open scoped BigOperators

/-- The challenges of a complete round: matrix and element of the decryption proof, those of the encryption and
key-generation proofs, matrix and element of the smallness proof. -/
structure RoundChallenges (q : ℕ) (St : Type) where
  decR : ℕ → ℕ → Elt (ZMod q) 2
  decX : Elt (ZMod q) 2
  enc : EncChallenges q St
  key : KeyChallenges q St
  smallR : ℕ → ℕ → Elt (ZMod q) 2
  smallX : Elt (ZMod q) 2
  st : St

variable {q : ℕ} [Fact q.Prime] {G : Type} [AddCommGroup G] [Module (ZMod q) G]

/-- The challenges of a round as a function of the transcript `st` before it, the commitments and the masked reply:
those of the four proofs that draw challenges, each from the transcript that the previous one left. -/
def roundChallenges (E : Env (ZMod q) G) (st : E.St) (kay enn tee : ℕ) (com : Blocks G) (z : EVec q 2) :
    RoundChallenges q E.St :=
  let d := decChallenges E st tee com
  let e := encChallenges E d.2.2 kay enn com
  let k := keyChallenges E e.st kay com
  let s := smallChallenges E k.st com z
  ⟨d.1, d.2.1, e, k, s.1, s.2.1, s.2.2⟩

/-- The inputs of a round have their lengths (nothing is said about their values). -/
structure Sized (P : Params q) (inp : RoundInput q) : Prop where
  ctMat : HasShape inp.ctMat P.gk.kay P.gk.tee
  ctVec : inp.ctVec.length = P.gk.tee
  pt1 : inp.pt1.length = P.gk.tee
  decNoise : inp.decNoise.length = P.gk.tee
  ct1 : inp.ct1.length = P.gk.kay
  ct2 : inp.ct2.length = P.gk.enn
  pt2 : inp.pt2.length = P.gk.enn
  encRnd : inp.encRnd.length = P.gk.kay
  encNoise1 : inp.encNoise1.length = P.gk.kay
  encNoise2 : inp.encNoise2.length = P.gk.enn
  sk2 : inp.sk2.length = P.gk.kay
  keyNoise : inp.keyNoise.length = P.gk.kay

/-- For entry `j` of each of the seven batches: left minus right side of the equation for the values `x`, with the
challenge matrices of `C` and the masked reply `z`. -/
structure RoundEqs (q : ℕ) where
  dec : ℕ → Elt (ZMod q) 2
  enc1 : ℕ → Elt (ZMod q) 2
  enc2 : ℕ → Elt (ZMod q) 2
  enc3 : ℕ → Elt (ZMod q) 2
  key1 : ℕ → Elt (ZMod q) 2
  key2 : ℕ → Elt (ZMod q) 2
  small : ℕ → Elt (ZMod q) 2

/-- see `RoundEqs` -/
noncomputable def roundEqs {St : Type} (P : Params q) (inp : RoundInput q) (ix : Indexes) (x : ℕ → ZMod q)
    (C : RoundChallenges q St) (z : EVec q 2) : RoundEqs q where
  dec j := digits x ix.dCompLo ix.dCompHi P.radix j - ∑ i ∈ Finset.range P.gk.tee,
    decNoise P.delta P.gk.kay inp.ctMat inp.ctVec ix.sk1 ix.pt1 x i * C.decR i j
  enc1 j := digits x ix.eComp1Lo ix.eComp1Hi P.radix j - ∑ i ∈ Finset.range P.gk.kay,
    C.enc.R1 j i * encNoise1 P.gk.kay P.gk.A inp.ct1 ix.r x i
  enc2 j := digits x ix.eComp2Lo ix.eComp2Hi P.radix j - ∑ i ∈ Finset.range P.gk.enn,
    C.enc.R2 j i * encNoise2 P.delta P.gk.kay P.gk.B inp.ct2 ix.r ix.pt2 x i
  enc3 j := eltAt x ix.rComp j - ∑ i ∈ Finset.range P.gk.kay, C.enc.R3 j i * eltAt x ix.r i
  key1 j := digits x ix.kCompLo ix.kCompHi P.radix j - ∑ i ∈ Finset.range P.gk.kay,
    keyNoise P.gk.kay P.gk.A (P.gk.B.getD inp.pkNum []) ix.sk2 x i * C.key.R1 i j
  key2 j := eltAt x ix.sk2Comp j - ∑ i ∈ Finset.range P.gk.kay, eltAt x ix.sk2 i * C.key.R2 i j
  small j := eltAt x ix.y j + (∑ i ∈ Finset.range 1300, eltAt x 0 i * C.smallR i j) - z.getD j 0

/-- A product of norm at most `B` of the vector `v` (`n` ring elements) and a challenge matrix did not come from a vector
with a coefficient larger than `2B/√(κ+1)`. -/
def NotFooled (κ n : ℕ) (B : ℤ) (v : ℕ → Elt (ZMod q) 2) (u : ℕ → Elt (ZMod q) 2) : Prop :=
  normSq (coeffs ((List.range 128).map u)) ≤ B ^ 2 →
    ∀ i < n, ∀ c : Fin 2, (κ + 1) * ((v i).c c).valMinAbs ^ 2 ≤ 4 * B ^ 2

/-- The challenges of a round are good for the values `x`: no batch hides a false equation, a short masked reply did
not come from a vector with an entry larger than twice the bound, and no short compressed vector came from a vector
with a large entry. -/
structure GoodRound {St : Type} (P : Params q) (inp : RoundInput q) (ix : Indexes) (x : ℕ → ZMod q)
    (C : RoundChallenges q St) (z : EVec q 2) (κ : ℕ) : Prop where
  decX : C.decX ∉ BadBatch 128 (roundEqs P inp ix x C z).dec
  encX1 : C.enc.x1 ∉ BadBatch 128 (roundEqs P inp ix x C z).enc1
  encX2 : C.enc.x2 ∉ BadBatch 128 (roundEqs P inp ix x C z).enc2
  encX3 : C.enc.x3 ∉ BadBatch 128 (roundEqs P inp ix x C z).enc3
  keyX1 : C.key.x1 ∉ BadBatch 128 (roundEqs P inp ix x C z).key1
  keyX2 : C.key.x2 ∉ BadBatch 128 (roundEqs P inp ix x C z).key2
  smallX : C.smallX ∉ BadBatch 64 (roundEqs P inp ix x C z).small
  smallR : (∀ j < 64, ∀ c : Fin 2, |(((∑ i ∈ Finset.range 1300, eltAt x 0 i * C.smallR i j) +
    eltAt x ix.y j).c c).valMinAbs| ≤ P.B_smallness) → ∀ i < 2600, |(x i).valMinAbs| ≤ 2 * P.B_smallness
  decR : NotFooled κ P.gk.tee (digitsBound P 0 1) (decNoise P.delta P.gk.kay inp.ctMat inp.ctVec ix.sk1 ix.pt1 x)
    fun j => ∑ i ∈ Finset.range P.gk.tee,
      decNoise P.delta P.gk.kay inp.ctMat inp.ctVec ix.sk1 ix.pt1 x i * C.decR i j
  encR1 : NotFooled κ P.gk.kay (digitsBound P 3 4) (encNoise1 P.gk.kay P.gk.A inp.ct1 ix.r x)
    fun j => ∑ i ∈ Finset.range P.gk.kay, C.enc.R1 j i * encNoise1 P.gk.kay P.gk.A inp.ct1 ix.r x i
  encR2 : NotFooled κ P.gk.enn (digitsBound P 5 6) (encNoise2 P.delta P.gk.kay P.gk.B inp.ct2 ix.r ix.pt2 x)
    fun j => ∑ i ∈ Finset.range P.gk.enn, C.enc.R2 j i * encNoise2 P.delta P.gk.kay P.gk.B inp.ct2 ix.r ix.pt2 x i
  encR3 : NotFooled κ P.gk.kay (normBound P 2) (eltAt x ix.r)
    fun j => ∑ i ∈ Finset.range P.gk.kay, C.enc.R3 j i * eltAt x ix.r i
  keyR1 : NotFooled κ P.gk.kay (digitsBound P 8 9) (keyNoise P.gk.kay P.gk.A (P.gk.B.getD inp.pkNum []) ix.sk2 x)
    fun j => ∑ i ∈ Finset.range P.gk.kay,
      keyNoise P.gk.kay P.gk.A (P.gk.B.getD inp.pkNum []) ix.sk2 x i * C.key.R1 i j
  keyR2 : NotFooled κ P.gk.kay (normBound P 7) (eltAt x ix.sk2)
    fun j => ∑ i ∈ Finset.range P.gk.kay, eltAt x ix.sk2 i * C.key.R2 i j

/-- All coefficients `a` of the vector satisfy `(κ+1)·a² ≤ 4·B²`, that is `|a| ≤ 2B/√(κ+1)`. -/
def Within (κ : ℕ) (B : ℤ) (v : EVec q 2) : Prop :=
  ∀ s ∈ coeffs v, (κ + 1) * s.valMinAbs ^ 2 ≤ 4 * B ^ 2

/-- What a round is supposed to prove: there are an old key, plaintexts, randomness, a new key and noises, those of
the committed vectors that are read from `x`, such that the old ciphertexts decrypt to `pt1` under the old key; the new ciphertext is an
encryption of `pt2`; the public key belongs to the new key; `pt2`, with the secret reconstructed from `pt1` in
front, passes the parity checks; all small vectors are small. -/
structure RoundTrue (P : Params q) (inp : RoundInput q) (ix : Indexes) (x : ℕ → ZMod q) (κ : ℕ)
    (sk1 : EVec q 2) (pt1 : List (ZMod q)) (dNoise r : EVec q 2) (pt2 : List (ZMod q)) (eNoise1 eNoise2 sk2 kNoise :
    EVec q 2) : Prop where
  lengths : sk1.length = P.gk.kay ∧ pt1.length = P.gk.tee ∧ dNoise.length = P.gk.tee ∧ r.length = P.gk.kay ∧
    pt2.length = P.gk.enn ∧ eNoise1.length = P.gk.kay ∧ eNoise2.length = P.gk.enn ∧ sk2.length = P.gk.kay ∧
    kNoise.length = P.gk.kay
  reads : Reads x ix.sk1 (coeffs sk1) ∧ Reads x ix.pt1 pt1 ∧ Reads x ix.r (coeffs r) ∧ Reads x ix.pt2 pt2 ∧
    Reads x ix.sk2 (coeffs sk2)
  decrypts : Decrypts P.delta P.gk.kay P.gk.tee inp.ctMat inp.ctVec pt1 sk1 dNoise
  encrypts1 : Encrypts1 P.gk.kay P.gk.A inp.ct1 r eNoise1
  encrypts2 : Encrypts2 P.delta P.gk.kay P.gk.enn P.gk.B inp.ct2 pt2 r eNoise2
  keyFor : KeyFor P.gk.kay P.gk.A (P.gk.B.getD inp.pkNum []) sk2 kNoise
  reshares : ∀ y ∈ matVec P.H ((∑ i ∈ Finset.range P.gk.tee, inp.lagrange.getD i 0 * pt1.getD i 0) :: pt2), y = 0
  rSmall : Within κ P.B_r r
  eNoise1Small : Within κ (digitsBound P 3 4) eNoise1
  eNoise2Small : Within κ (digitsBound P 5 6) eNoise2
  skSmall : Within κ P.B_sk sk2
  kNoiseSmall : Within κ (digitsBound P 8 9) kNoise

end Verif.Spec
