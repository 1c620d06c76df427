/-
Model of /repo/src/regev/regevProofs.cpp:39-767: `proveDecryption`, `proveEncryption`, `proveKeyGen`,
`proveReShare`, `proveSmallness`, and of the transcript functions they use
(/repo/include/regevProofs.hpp:63-148).

Scalars are `ZMod q`, ring elements `Elt (ZMod q) 2`.  The random scalars of the commitments, the random
masks and the outcomes of the primality tests are arguments.  `assert(...)` is an exception.  The
`#ifdef DEBUGGING` blocks and the timing code are left out.  (The import of Lemmas/Elt.lean is for the fact
that ring elements form a commutative ring, which the model of the ternary products asks for.)
-/
import Verif.Model.Aggregate
import Verif.Model.Ternary
import Verif.Model.RegevEnc
import Verif.Model.Scalar25519
import Verif.Lemmas.Elt

namespace Verif
open Regev

/-- The public parameters in `VerifierData`, regevProofs.hpp:155-171: the global key `*gk`, `Delta`
(which determines `gk->g()`), the parity check matrix `sp->H`, the norm bounds and the radix. -/
structure Params (q : ℕ) where
  gk : GlobalKey q 2
  delta : ℕ
  H : List (List (ZMod q))
  B_dNoise : ℤ
  B_sk : ℤ
  B_r : ℤ
  B_eNoise1 : ℤ
  B_eNoise2 : ℤ
  B_kNoise : ℤ
  B_smallness : ℤ
  smlnsBits : ℕ
  radix : ℤ

/-- The outcomes of the primality tests made by one call of `decompose4` (Model/FourSquares.lean). -/
structure Tests where
  single : ℕ → Bool
  probPrime : ℤ → Bool

/-- `SQRT_JL`, regevProofs.hpp:55. -/
def SQRT_JL : ℤ := 16

/-- `TernaryEMatrix::X` for the library's degree 2, ternaryMatrix.cpp:160-165. -/
def eltX (F : Type) [Zero F] [One F] : Elt F 2 := ⟨![0, 1]⟩

/-- `int(ceil(sqrt(n)))`, regevProofs.cpp:64, 209, 210, 464.  The code uses doubles, which gives the
exact value for the `int`s it is applied to (C103_ceilSqrt). -/
def ceilSqrt (n : ℕ) : ℕ := if Nat.sqrt n * Nat.sqrt n = n then Nat.sqrt n else Nat.sqrt n + 1

noncomputable section
variable {q : ℕ} [Fact q.Prime] {G : Type} [AddCommGroup G] [Module (ZMod q) G]

/-- `conv(CRV25519::Scalar&,BigInt)`, utils.hpp:57-59 with algebra.hpp:107-109: NTL's `BytesFromZZ` writes the low 32 bytes of the
absolute value; the 32 bytes are the scalar, without reduction.  What counts is the residue. -/
def convBI (n : ℤ) : ZMod q := ((n.natAbs % 2 ^ 256 : ℕ) : ZMod q)

/-! ### Transcript functions, regevProofs.hpp:63-148 -/

/-- `MerlinRegev::newTernaryEMatrix(label,R,n,m)` on a default constructed matrix, regevProofs.hpp:121-131:
the matrix and the new state.  With a zero dimension nothing is asked for. -/
def newTernaryE (E : Env (ZMod q) G) (st : E.St) (label : Bytes) (n m : ℕ) :
    Res (List TMat × E.St) :=
  if n = 0 ∨ m = 0 then .ok ([], st)
  else do
    let R ← newTernaryEMatrix 2 (fun k => (E.challenge st label k).1) [] n m
    .ok (R, (E.challenge st label (2 * ((n * m + 3) / 4))).2)

/-- `MerlinRegev::newElement`, regevProofs.hpp:140-148. -/
def newElement (E : Env (ZMod q) G) (st : E.St) (label : Bytes) :
    Res (Elt (ZMod q) 2 × E.St) := do
  let e ← Sc.elementFromBytes (E.challenge st label 64).1 64
  .ok (e, (E.challenge st label 64).2)

/-- `MerlinRegev::processVector(EVector,label)`, regevProofs.hpp:80-90: only the first element is
labelled. -/
def processVectorE (E : Env (ZMod q) G) (st : E.St) (label : Bytes) : EVec q 2 → E.St
  | [] => st
  | e :: es => es.foldl (fun st e => E.commit st [] (Sc.elementBytes e 64))
      (E.commit st label (Sc.elementBytes e 64))

/-! ### Pieces that the prove functions have in common -/

/-- A compressed vector with its padding. -/
structure Padded (q : ℕ) where
  comp : EVec q 2
  pad : EVec q 2

/-- `pad2exactNorm(comp, pad, bound)`, e.g. regevProofs.cpp:74. -/
def padTo (t : Tests) (comp : EVec q 2) (bound : ℤ) : Res (Padded q) := do
  let pad ← pad2exactNormV t.single t.probPrime comp bound
  .ok ⟨comp, pad⟩

/-- The two calls of `commit2` for a compressed vector and its padding, e.g. regevProofs.cpp:78-79. -/
def commitPair (base : G) (Gs Hs : List G) (p : Padded q) (iComp iPad : ℕ) (rComp rPad : ZMod q) :
    Res (G × G) := do
  let c ← commit2E base p.comp iComp Gs Hs rComp
  let d ← commit2E base p.pad iPad Gs Hs rPad
  .ok (c, d)

/-- The two calls of `addEVec2Map` for a compressed vector and its padding, e.g.
regevProofs.cpp:118-119 and 148-149. -/
def putPair (m : PtxtVec (ZMod q)) (p : Padded q) (iComp iPad : ℕ) : PtxtVec (ZMod q) :=
  addEVec2Map (addEVec2Map m p.comp iComp) p.pad iPad

/-- Recording a norm constraint in `vd.normConstr[slot]`, e.g. regevProofs.cpp:136-139: the right-hand
side is overwritten, the indexes are added to those already there. -/
def setNorm (norm : List (QuadConstraint (ZMod q))) (slot : ℕ) (bound : ℤ) (iComp iPad : ℕ) :
    Res (List (QuadConstraint (ZMod q))) := do
  let c ← rd norm slot
  .ok (norm.set slot
    { equalsTo := convBI (bound * bound)
      indexes := addRange2Set (addRange2Set c.indexes iComp JLDIM) iPad PAD_SIZE })

/-- `for (auto& x : v) { pd.compressed[eIdx++] = x; }`, e.g. regevProofs.cpp:163-164. -/
def copyTo : EVec q 2 → ℕ → EVec q 2 → Res (EVec q 2)
  | out, _, [] => .ok out
  | out, i, x :: v => if out.length ≤ i then .ub else copyTo (out.set i x) (i + 1) v

/-- Copying a compressed vector and its padding to `pd.compressed`, e.g. regevProofs.cpp:163-166; the
indexes are divided by `ell = 2`. -/
def copyPair (out : EVec q 2) (p : Padded q) (iComp iPad : ℕ) : Res (EVec q 2) := do
  let out ← copyTo out (iComp / 2) p.comp
  copyTo out (iPad / 2) p.pad

/-- A computation on the constraints from `&(vd.linConstr[slot])` on, e.g. regevProofs.cpp:97. -/
def onSlot (cs : List (LinConstraint (ZMod q))) (slot : ℕ)
    (f : List (LinConstraint (ZMod q)) → Res (List (LinConstraint (ZMod q)))) :
    Res (List (LinConstraint (ZMod q))) :=
  if cs.length ≤ slot then .ub
  else do
    let out ← f (cs.drop slot)
    .ok (cs.take slot ++ out)

/-- `for (i<ell) lCnstr[i] = LinConstraint()`, e.g. regevProofs.cpp:98-99. -/
def resetSlot (cs : List (LinConstraint (ZMod q))) : Res (List (LinConstraint (ZMod q))) :=
  if cs.length < 2 then .ub
  else .ok (cs.mapIdx fun i c => if i < 2 then ⟨[], 0⟩ else c)

/-- `s*v`, `v*e`, `-v` on vectors of elements (NTL). -/
def scaleE (s : ZMod q) (v : EVec q 2) : EVec q 2 := v.map fun e => s • e
/-- see `scaleE` -/
def mulE (v : EVec q 2) (e : Elt (ZMod q) 2) : EVec q 2 := v.map fun a => a * e
/-- see `scaleE` -/
def negE (v : EVec q 2) : EVec q 2 := v.map fun a => -a

/-- The number of columns of a matrix: that of its first row (NTL stores it; a matrix without rows is
given no columns here). -/
def numCols (M : EMat q 2) : ℕ := (M.headD []).length

/-! ### Decryption -/

/-- The linear constraints of `proveDecryption`, regevProofs.cpp:97-115, on the constraints from slot
`dLinIdx` on. -/
def decConstraints (P : Params q) (ix : Indexes) (R : List TMat) (xvec : EVec q 2) (ctMat : EMat q 2)
    (ctVec : EVec q 2) (cs : List (LinConstraint (ZMod q))) : Res (List (LinConstraint (ZMod q))) := do
  let cs ← resetSlot cs
  let Rx ← rightVecMultE 2 (eltX (ZMod q)) R xvec
  let cs ← setEqsTo cs (ip ctVec Rx)
  let cs ← expandConstraints cs ix.dCompLo xvec
  let cs ← expandConstraints cs ix.dCompHi (scaleE (P.radix : ZMod q) xvec)
  let ctRx ← matVec ctMat (numCols ctMat) Rx
  let cs ← expandConstraints cs ix.sk1 ctRx
  makeConstraints cs ix.pt1 (mulE Rx (g q 2 P.delta))

/-- `hiBound`, `loBound` of regevProofs.cpp:64-65 (and 208-210, 464-465): NTL's `/` rounds towards minus
infinity. -/
def hiBound (P : Params q) (B : ℤ) (dim : ℕ) : ℤ := B.fdiv P.radix + (ceilSqrt dim : ℤ)
/-- see `hiBound` -/
def loBound (P : Params q) : ℤ := P.radix * SQRT_JL

/-- `proveDecryption`, regevProofs.cpp:39-171.  `fresh` is the commitment randomness it draws, `tests`
the primality tests (one per padding, numbered like the norm constraints). -/
def proveDecryption (E : Env (ZMod q) G) (P : Params q) (fresh : Blocks (ZMod q)) (tests : ℕ → Tests)
    (vd : VerifierData (ZMod q) G E.St) (pd : ProverData (ZMod q))
    (ctMat : EMat q 2) (ctVec : EVec q 2) (ptxt : List (ZMod q)) (skey noise : EVec q 2) :
    Res (VerifierData (ZMod q) G E.St × ProverData (ZMod q)) := do
  let kk := P.gk.kay * 2
  let ix := vd.ix
  -- lines 48-49
  let pt1Com ← commitS E.base ptxt ix.pt1 vd.Gs fresh.pt1
  let mer := E.processPoint vd.mer (str "RegevDecPtxt") pt1Com
  -- lines 52-60
  let (R, mer) ← newTernaryE E mer (str "RegevDecX") P.gk.tee (JLDIM / 2)
  let compNoise ← leftVecMultE 2 (eltX (ZMod q)) noise R
  let (compHi, compLo) ← breakTwoDigits compNoise P.radix
  -- lines 63-75
  let hi ← padTo (tests 0) compHi (hiBound P P.B_dNoise kk)
  let lo ← padTo (tests 1) compLo (loBound P)
  -- lines 78-81
  let cHi ← commitPair E.base vd.Gs vd.Hs hi ix.dCompHi ix.dPadHi fresh.dCompHi fresh.dPadHi
  let cLo ← commitPair E.base vd.Gs vd.Hs lo ix.dCompLo ix.dPadLo fresh.dCompLo fresh.dPadLo
  -- lines 84-87
  let mer := E.processPoint mer (str "RegevDecCompHi") cHi.1
  let mer := E.processPoint mer (str "RegevDecPadHi") cHi.2
  let mer := E.processPoint mer (str "RegevDecCompLo") cLo.1
  let mer := E.processPoint mer (str "RegevDecPadLo") cLo.2
  -- lines 90-92
  let (x, mer) ← newElement E mer (str "RegevDec")
  let xvec ← powerVector x (JLDIM / 2)
  -- lines 97-115
  let lin ← onSlot vd.linConstr 0 (decConstraints P ix R xvec ctMat ctVec)
  -- lines 118-123
  let linWitness := putPair pd.linWitness hi ix.dCompHi ix.dPadHi
  let linWitness := putPair linWitness lo ix.dCompLo ix.dPadLo
  let linWitness := addEVec2Map linWitness skey ix.sk1
  let linWitness := addSVec2Map linWitness ptxt ix.pt1
  -- lines 136-145
  let norm ← setNorm vd.normConstr 0 (hiBound P P.B_dNoise kk) ix.dCompHi ix.dPadHi
  let norm ← setNorm norm 1 (loBound P) ix.dCompLo ix.dPadLo
  -- lines 148-151
  let quad := putPair pd.quadWitnessG hi ix.dCompHi ix.dPadHi
  let quad := putPair quad lo ix.dCompLo ix.dPadLo
  -- lines 163-170
  let comp ← copyPair pd.compressed hi ix.dCompHi ix.dPadHi
  let comp ← copyPair comp lo ix.dCompLo ix.dPadLo
  .ok ({ vd with
          com := { vd.com with pt1 := pt1Com, dCompHi := cHi.1, dPadHi := cHi.2,
                               dCompLo := cLo.1, dPadLo := cLo.2 }
          linConstr := lin
          normConstr := norm
          mer := mer },
       { pd with
          rnd := { pd.rnd with pt1 := fresh.pt1, dCompHi := fresh.dCompHi, dPadHi := fresh.dPadHi,
                               dCompLo := fresh.dCompLo, dPadLo := fresh.dPadLo }
          linWitness := linWitness
          quadWitnessG := quad
          compressed := comp })

/-! ### Encryption -/

/-- The first linear constraint of `proveEncryption`, regevProofs.cpp:276-294 (after the reset of
lines 268-269). -/
def encConstraints1 (P : Params q) (ix : Indexes) (R1 : List TMat) (xvec1 ct1 : EVec q 2)
    (cs : List (LinConstraint (ZMod q))) : Res (List (LinConstraint (ZMod q))) := do
  let xR1 ← leftVecMultE 2 (eltX (ZMod q)) xvec1 R1
  let cs ← setEqsTo cs (ip xR1 ct1)
  let xR1A ← vecMat xR1 P.gk.A P.gk.kay
  let cs ← expandConstraints cs ix.r xR1A
  let cs ← expandConstraints cs ix.eComp1Lo xvec1
  expandConstraints cs ix.eComp1Hi (scaleE (P.radix : ZMod q) xvec1)

/-- The second linear constraint of `proveEncryption`, regevProofs.cpp:298-315. -/
def encConstraints2 (P : Params q) (ix : Indexes) (R2 : List TMat) (xvec2 ct2 : EVec q 2)
    (cs : List (LinConstraint (ZMod q))) : Res (List (LinConstraint (ZMod q))) := do
  let xR2 ← leftVecMultE 2 (eltX (ZMod q)) xvec2 R2
  let cs ← setEqsTo cs (ip xR2 ct2)
  let xR2B ← vecMat xR2 P.gk.B P.gk.kay
  let cs ← expandConstraints cs ix.r xR2B
  let cs ← expandConstraints cs ix.eComp2Lo xvec2
  let cs ← expandConstraints cs ix.eComp2Hi (scaleE (P.radix : ZMod q) xvec2)
  makeConstraints cs ix.pt2 (mulE xR2 (g q 2 P.delta))

/-- The third linear constraint of `proveEncryption`, regevProofs.cpp:323-330.  These constraints are
not reset. -/
def encConstraints3 (ix : Indexes) (R3 : List TMat) (xvec3 : EVec q 2)
    (cs : List (LinConstraint (ZMod q))) : Res (List (LinConstraint (ZMod q))) := do
  let cs ← setEqsTo cs (0 : Elt (ZMod q) 2)
  let cs ← expandConstraints cs ix.rComp xvec3
  let xR3 ← leftVecMultE 2 (eltX (ZMod q)) (negE xvec3) R3
  expandConstraints cs ix.r xR3

/-- `proveEncryption`, regevProofs.cpp:175-436. -/
def proveEncryption (E : Env (ZMod q) G) (P : Params q) (fresh : Blocks (ZMod q)) (tests : ℕ → Tests)
    (vd : VerifierData (ZMod q) G E.St) (pd : ProverData (ZMod q))
    (ct1 ct2 : EVec q 2) (ptxt : List (ZMod q)) (rnd noise1 noise2 : EVec q 2) :
    Res (VerifierData (ZMod q) G E.St × ProverData (ZMod q)) := do
  let kk := P.gk.kay * 2
  let nn := P.gk.enn * 2
  let ix := vd.ix
  -- lines 185-188
  let pt2Com ← commitS E.base ptxt ix.pt2 vd.Gs fresh.pt2
  let rCom ← commitE E.base rnd ix.r vd.Gs fresh.r
  let mer := E.processPoint vd.mer (str "RegevEncPtxt") pt2Com
  let mer := E.processPoint mer (str "RegevEncRnd") rCom
  -- lines 194-196
  let (R1, mer) ← newTernaryE E mer (str "RegevEncR1") (JLDIM / 2) P.gk.kay
  let (R2, mer) ← newTernaryE E mer (str "RegevEncR2") (JLDIM / 2) P.gk.enn
  let (R3, mer) ← newTernaryE E mer (str "RegevEncR3") (JLDIM / 2) P.gk.kay
  -- lines 198-204
  let compNoise1 ← rightVecMultE 2 (eltX (ZMod q)) R1 noise1
  let compNoise2 ← rightVecMultE 2 (eltX (ZMod q)) R2 noise2
  let compR ← rightVecMultE 2 (eltX (ZMod q)) R3 rnd
  let (comp1Hi, comp1Lo) ← breakTwoDigits compNoise1 P.radix
  let (comp2Hi, comp2Lo) ← breakTwoDigits compNoise2 P.radix
  -- lines 207-233
  let r ← padTo (tests 2) compR P.B_r
  let hi1 ← padTo (tests 3) comp1Hi (hiBound P P.B_eNoise1 kk)
  let lo1 ← padTo (tests 4) comp1Lo (loBound P)
  let hi2 ← padTo (tests 5) comp2Hi (hiBound P P.B_eNoise2 nn)
  let lo2 ← padTo (tests 6) comp2Lo (loBound P)
  -- lines 237-246
  let cR ← commitPair E.base vd.Gs vd.Hs r ix.rComp ix.rPad fresh.rComp fresh.rPad
  let cHi1 ← commitPair E.base vd.Gs vd.Hs hi1 ix.eComp1Hi ix.ePad1Hi fresh.eComp1Hi fresh.ePad1Hi
  let cLo1 ← commitPair E.base vd.Gs vd.Hs lo1 ix.eComp1Lo ix.ePad1Lo fresh.eComp1Lo fresh.ePad1Lo
  let cHi2 ← commitPair E.base vd.Gs vd.Hs hi2 ix.eComp2Hi ix.ePad2Hi fresh.eComp2Hi fresh.ePad2Hi
  let cLo2 ← commitPair E.base vd.Gs vd.Hs lo2 ix.eComp2Lo ix.ePad2Lo fresh.eComp2Lo fresh.ePad2Lo
  -- lines 249-262
  let mer := E.processPoint mer (str "RegevEncR") cR.1
  let mer := E.processPoint mer [] cR.2
  let mer := E.processPoint mer (str "RegevEnc1Hi") cHi1.1
  let mer := E.processPoint mer [] cHi1.2
  let mer := E.processPoint mer (str "RegevEnc1Lo") cLo1.1
  let mer := E.processPoint mer [] cLo1.2
  let mer := E.processPoint mer (str "RegevEnc2Hi") cHi2.1
  let mer := E.processPoint mer [] cHi2.2
  let mer := E.processPoint mer (str "RegevEnc2Lo") cLo2.1
  let mer := E.processPoint mer [] cLo2.2
  -- lines 266-271
  let lin ← onSlot vd.linConstr 2 resetSlot
  let lin ← onSlot lin 4 resetSlot
  -- lines 276-294
  let (x1, mer) ← newElement E mer (str "RegevEncChallenge1")
  let xvec1 ← powerVector x1 (JLDIM / 2)
  let lin ← onSlot lin 2 (encConstraints1 P ix R1 xvec1 ct1)
  -- lines 298-315
  let (x2, mer) ← newElement E mer (str "RegevEncChallenge2")
  let xvec2 ← powerVector x2 (JLDIM / 2)
  let lin ← onSlot lin 4 (encConstraints2 P ix R2 xvec2 ct2)
  -- lines 318-330
  let (x3, mer) ← newElement E mer (str "RegevEncChallenge3")
  let xvec3 ← powerVector x3 (JLDIM / 2)
  let lin ← onSlot lin 6 (encConstraints3 ix R3 xvec3)
  -- lines 333-344
  let linWitness := putPair pd.linWitness r ix.rComp ix.rPad
  let linWitness := putPair linWitness hi1 ix.eComp1Hi ix.ePad1Hi
  let linWitness := putPair linWitness lo1 ix.eComp1Lo ix.ePad1Lo
  let linWitness := putPair linWitness hi2 ix.eComp2Hi ix.ePad2Hi
  let linWitness := putPair linWitness lo2 ix.eComp2Lo ix.ePad2Lo
  let linWitness := addEVec2Map linWitness rnd ix.r
  let linWitness := addSVec2Map linWitness ptxt ix.pt2
  -- lines 364-384
  let norm ← setNorm vd.normConstr 2 P.B_r ix.rComp ix.rPad
  let norm ← setNorm norm 3 (hiBound P P.B_eNoise1 kk) ix.eComp1Hi ix.ePad1Hi
  let norm ← setNorm norm 4 (loBound P) ix.eComp1Lo ix.ePad1Lo
  let norm ← setNorm norm 5 (hiBound P P.B_eNoise2 nn) ix.eComp2Hi ix.ePad2Hi
  let norm ← setNorm norm 6 (loBound P) ix.eComp2Lo ix.ePad2Lo
  -- lines 387-396
  let quad := putPair pd.quadWitnessG r ix.rComp ix.rPad
  let quad := putPair quad hi1 ix.eComp1Hi ix.ePad1Hi
  let quad := putPair quad lo1 ix.eComp1Lo ix.ePad1Lo
  let quad := putPair quad hi2 ix.eComp2Hi ix.ePad2Hi
  let quad := putPair quad lo2 ix.eComp2Lo ix.ePad2Lo
  -- lines 416-435
  let comp ← copyPair pd.compressed r ix.rComp ix.rPad
  let comp ← copyPair comp hi1 ix.eComp1Hi ix.ePad1Hi
  let comp ← copyPair comp lo1 ix.eComp1Lo ix.ePad1Lo
  let comp ← copyPair comp hi2 ix.eComp2Hi ix.ePad2Hi
  let comp ← copyPair comp lo2 ix.eComp2Lo ix.ePad2Lo
  .ok ({ vd with
          com := { vd.com with pt2 := pt2Com, r := rCom, rComp := cR.1, rPad := cR.2,
                               eComp1Hi := cHi1.1, ePad1Hi := cHi1.2,
                               eComp1Lo := cLo1.1, ePad1Lo := cLo1.2,
                               eComp2Hi := cHi2.1, ePad2Hi := cHi2.2,
                               eComp2Lo := cLo2.1, ePad2Lo := cLo2.2 }
          linConstr := lin
          normConstr := norm
          mer := mer },
       { pd with
          rnd := { pd.rnd with pt2 := fresh.pt2, r := fresh.r, rComp := fresh.rComp, rPad := fresh.rPad,
                               eComp1Hi := fresh.eComp1Hi, ePad1Hi := fresh.ePad1Hi,
                               eComp1Lo := fresh.eComp1Lo, ePad1Lo := fresh.ePad1Lo,
                               eComp2Hi := fresh.eComp2Hi, ePad2Hi := fresh.ePad2Hi,
                               eComp2Lo := fresh.eComp2Lo, ePad2Lo := fresh.ePad2Lo }
          linWitness := linWitness
          quadWitnessG := quad
          compressed := comp })

/-! ### Key generation -/

/-- The first linear constraint of `proveKeyGen`, regevProofs.cpp:507-520. -/
def keyConstraints1 (P : Params q) (ix : Indexes) (R1 : List TMat) (xvec1 pk : EVec q 2)
    (cs : List (LinConstraint (ZMod q))) : Res (List (LinConstraint (ZMod q))) := do
  let R1x ← rightVecMultE 2 (eltX (ZMod q)) R1 xvec1
  let cs ← setEqsTo cs (ip R1x pk)
  let AR1x ← matVec P.gk.A P.gk.kay R1x
  let cs ← expandConstraints cs ix.sk2 AR1x
  let cs ← expandConstraints cs ix.kCompLo xvec1
  expandConstraints cs ix.kCompHi (scaleE (P.radix : ZMod q) xvec1)

/-- The second linear constraint of `proveKeyGen`, regevProofs.cpp:527-534. -/
def keyConstraints2 (ix : Indexes) (R2 : List TMat) (xvec2 : EVec q 2)
    (cs : List (LinConstraint (ZMod q))) : Res (List (LinConstraint (ZMod q))) := do
  let cs ← setEqsTo cs (0 : Elt (ZMod q) 2)
  let cs ← expandConstraints cs ix.sk2Comp xvec2
  let R2x ← rightVecMultE 2 (eltX (ZMod q)) R2 xvec2
  expandConstraints cs ix.sk2 (negE R2x)

/-- `proveKeyGen`, regevProofs.cpp:441-599.  `pkNum` is the number of the public key; reading a row
that is not there is undefined. -/
def proveKeyGen (E : Env (ZMod q) G) (P : Params q) (fresh : Blocks (ZMod q)) (tests : ℕ → Tests)
    (vd : VerifierData (ZMod q) G E.St) (pd : ProverData (ZMod q))
    (pkNum : ℕ) (skey noise : EVec q 2) :
    Res (VerifierData (ZMod q) G E.St × ProverData (ZMod q)) := do
  let kk := P.gk.kay * 2
  let ix := vd.ix
  -- lines 448-449
  let sk2Com ← commitE E.base skey ix.sk2 vd.Gs fresh.sk2
  let mer := E.processPoint vd.mer (str "RegevSK") sk2Com
  -- lines 454-461
  let (R1, mer) ← newTernaryE E mer (str "RegevKeyGenR1") P.gk.kay (JLDIM / 2)
  let (R2, mer) ← newTernaryE E mer (str "RegevKeyGenR2") P.gk.kay (JLDIM / 2)
  let ekComp ← leftVecMultE 2 (eltX (ZMod q)) noise R1
  let skComp ← leftVecMultE 2 (eltX (ZMod q)) skey R2
  let (eCompHi, eCompLo) ← breakTwoDigits ekComp P.radix
  -- lines 464-479
  let sk ← padTo (tests 7) skComp P.B_sk
  let hi ← padTo (tests 8) eCompHi (hiBound P P.B_kNoise kk)
  let lo ← padTo (tests 9) eCompLo (loBound P)
  -- lines 482-487
  let cSk ← commitPair E.base vd.Gs vd.Hs sk ix.sk2Comp ix.sk2Pad fresh.sk2Comp fresh.sk2Pad
  let cHi ← commitPair E.base vd.Gs vd.Hs hi ix.kCompHi ix.kPadHi fresh.kCompHi fresh.kPadHi
  let cLo ← commitPair E.base vd.Gs vd.Hs lo ix.kCompLo ix.kPadLo fresh.kCompLo fresh.kPadLo
  -- lines 490-497 (the same label is used for both digits)
  let mer := E.processPoint mer (str "RegevKeyGenSK") cSk.1
  let mer := E.processPoint mer [] cSk.2
  let mer := E.processPoint mer (str "RegevKGHi") cHi.1
  let mer := E.processPoint mer [] cHi.2
  let mer := E.processPoint mer (str "RegevKGHi") cLo.1
  let mer := E.processPoint mer [] cLo.2
  -- lines 499-504
  let lin ← onSlot vd.linConstr 8 resetSlot
  let lin ← onSlot lin 10 resetSlot
  -- lines 507-520
  let (x1, mer) ← newElement E mer (str "RegevKGChallenge1")
  let xvec1 ← powerVector x1 (JLDIM / 2)
  let pk ← rd P.gk.B pkNum
  let lin ← onSlot lin 8 (keyConstraints1 P ix R1 xvec1 pk)
  -- lines 523-534
  let (x2, mer) ← newElement E mer (str "RegevKGChallenge2")
  let xvec2 ← powerVector x2 (JLDIM / 2)
  let lin ← onSlot lin 10 (keyConstraints2 ix R2 xvec2)
  -- lines 537-543
  let linWitness := addEVec2Map pd.linWitness skey ix.sk2
  let linWitness := putPair linWitness sk ix.sk2Comp ix.sk2Pad
  let linWitness := putPair linWitness hi ix.kCompHi ix.kPadHi
  let linWitness := putPair linWitness lo ix.kCompLo ix.kPadLo
  -- lines 556-566
  let norm ← setNorm vd.normConstr 7 P.B_sk ix.sk2Comp ix.sk2Pad
  let norm ← setNorm norm 8 (hiBound P P.B_kNoise kk) ix.kCompHi ix.kPadHi
  let norm ← setNorm norm 9 (loBound P) ix.kCompLo ix.kPadLo
  -- lines 569-574
  let quad := putPair pd.quadWitnessG sk ix.sk2Comp ix.sk2Pad
  let quad := putPair quad hi ix.kCompHi ix.kPadHi
  let quad := putPair quad lo ix.kCompLo ix.kPadLo
  -- lines 587-598
  let comp ← copyPair pd.compressed sk ix.sk2Comp ix.sk2Pad
  let comp ← copyPair comp hi ix.kCompHi ix.kPadHi
  let comp ← copyPair comp lo ix.kCompLo ix.kPadLo
  .ok ({ vd with
          com := { vd.com with sk2 := sk2Com, sk2Comp := cSk.1, sk2Pad := cSk.2,
                               kCompHi := cHi.1, kPadHi := cHi.2, kCompLo := cLo.1, kPadLo := cLo.2 }
          linConstr := lin
          normConstr := norm
          mer := mer },
       { pd with
          rnd := { pd.rnd with sk2 := fresh.sk2, sk2Comp := fresh.sk2Comp, sk2Pad := fresh.sk2Pad,
                               kCompHi := fresh.kCompHi, kPadHi := fresh.kPadHi,
                               kCompLo := fresh.kCompLo, kPadLo := fresh.kPadLo }
          linWitness := linWitness
          quadWitnessG := quad
          compressed := comp })

/-! ### Re-sharing -/

/-- The constraint for one row of `H`, regevProofs.cpp:624-640: `tee` terms for the old shares, then
`enn` terms for the new ones.  Reading past the end of a vector is undefined. -/
def reShareRow (ix : Indexes) (tee enn : ℕ) (lagrange row : List (ZMod q)) :
    Res (LinConstraint (ZMod q)) := do
  let h0 ← rdN row 1
  let ls ← rdN lagrange tee
  let hs ← rdN (row.drop 1) enn
  let c := ls.zipIdx.foldl (fun (c : LinConstraint (ZMod q)) p =>
    c.addTerm (ix.pt1 + p.2) (h0.headD 0 * p.1)) ⟨[], 0⟩
  .ok (hs.zipIdx.foldl (fun (c : LinConstraint (ZMod q)) p => c.addTerm (ix.pt2 + p.2) p.1) c)

/-- The loop of `proveReShare`, regevProofs.cpp:623-641. -/
def reShareLoop (ix : Indexes) (tee enn : ℕ) (lagrange : List (ZMod q)) :
    List (List (ZMod q)) → ℕ → List (LinConstraint (ZMod q)) → Res (List (LinConstraint (ZMod q)))
  | [], _, cs => .ok cs
  | row :: H, i, cs => do
    let c ← reShareRow ix tee enn lagrange row
    if cs.length ≤ i then .ub else reShareLoop ix tee enn lagrange H (i + 1) (cs.set i c)

/-- `proveReShare`, regevProofs.cpp:603-660; `reShrLinIdx = 14`.  Every row of `H` has `H.NumCols()`
entries. -/
def proveReShare {St : Type} (P : Params q) (vd : VerifierData (ZMod q) G St) (pd : ProverData (ZMod q))
    (lagrange pt1 pt2 : List (ZMod q)) :
    Res (VerifierData (ZMod q) G St × ProverData (ZMod q)) :=
  if pt1.length ≠ P.gk.tee ∨ lagrange.length ≠ pt1.length ∨ pt2.length ≠ P.gk.enn ∨
      ¬ (∀ row ∈ P.H, row.length = 1 + pt2.length) then .throw
  else if vd.linConstr.length < 14 + P.H.length then .throw
  else do
    let lin ← reShareLoop vd.ix P.gk.tee P.gk.enn lagrange P.H 14 vd.linConstr
    .ok ({ vd with linConstr := lin }, pd)

/-! ### Smallness -/

/-- The randomness of one trial of `proveSmallness`: the mask `y` (bits per entry and coefficient) and
the commitment randomness. -/
structure SmallRnd (q : ℕ) where
  y : ℕ → ℕ → ℕ × Bool
  r : ZMod q

/-- The result of a successful trial of `proveSmallness`. -/
structure SmallTrial (q : ℕ) (G St : Type) where
  y : EVec q 2
  yCom : G
  yRnd : ZMod q
  R : List TMat
  z : EVec q 2
  mer : St

/-- The rejection-sampling loop of `proveSmallness`, regevProofs.cpp:690-731, for the remaining `k`
trials; `t` is the number of the trial.  NTL's `+` on vectors of different lengths is an error. -/
def smallLoop (E : Env (ZMod q) G) (P : Params q) (ix : Indexes) (Gs : List G) (mer : E.St)
    (compressed : EVec q 2) (rnd : ℕ → SmallRnd q) : ℕ → ℕ → Res (SmallTrial q G E.St)
  | _, 0 => .throw
  | t, k + 1 => do
    let y : EVec q 2 := (List.range (LINYDIM / 2)).map fun i => boundedElement P.smlnsBits ((rnd t).y i)
    let yCom ← commitE E.base y ix.y Gs (rnd t).r
    let bkp := E.processPoint mer (str "smallnessPf") yCom
    let (R, bkp) ← newTernaryE E bkp (str "Smallness") (10 * (JLDIM + PAD_SIZE) / 2) (LINYDIM / 2)
    let u ← leftVecMultE 2 (eltX (ZMod q)) compressed R
    let z ← vecAdd u y
    if lInftyNorm u ≤ P.B_smallness.fdiv LINYDIM ∧ lInftyNorm z ≤ P.B_smallness then
      .ok ⟨y, yCom, (rnd t).r, R, z, bkp⟩
    else smallLoop E P ix Gs mer compressed rnd (t + 1) k

/-- The linear constraint of `proveSmallness`, regevProofs.cpp:738-757. -/
def smallConstraints (ix : Indexes) (R : List TMat) (xvec z : EVec q 2)
    (cs : List (LinConstraint (ZMod q))) : Res (List (LinConstraint (ZMod q))) := do
  let cs ← resetSlot cs
  let cs ← setEqsTo cs (ip z xvec)
  let Rx ← rightVecMultE 2 (eltX (ZMod q)) R xvec
  let cs ← expandConstraints cs 0 Rx
  expandConstraints cs ix.y xvec

/-- `proveSmallness`, regevProofs.cpp:667-767.  At most 100 trials; the two assertions of lines
746-747 hold after the reset. -/
def proveSmallness (E : Env (ZMod q) G) (P : Params q) (rnd : ℕ → SmallRnd q)
    (vd : VerifierData (ZMod q) G E.St) (pd : ProverData (ZMod q)) :
    Res (VerifierData (ZMod q) G E.St × ProverData (ZMod q)) :=
  if pd.compressed.length ≠ 10 * (JLDIM + PAD_SIZE) / 2 then .throw
  else do
    let t ← smallLoop E P vd.ix vd.Gs vd.mer pd.compressed rnd 0 100
    -- lines 738-739
    let mer := processVectorE E t.mer (str "masked reply") t.z
    let (x, mer) ← newElement E mer (str "SmallnessChallenge")
    let xvec ← powerVector x (LINYDIM / 2)
    let lin ← onSlot vd.linConstr 12 (smallConstraints vd.ix t.R xvec t.z)
    .ok ({ vd with com := { vd.com with y := t.yCom }, linConstr := lin, z := t.z, mer := mer },
         { pd with rnd := { pd.rnd with y := t.yRnd }
                   linWitness := addEVec2Map pd.linWitness t.y vd.ix.y })

end
end Verif
