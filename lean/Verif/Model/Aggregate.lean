/-
Model of the aggregation part of /repo/src/regev/regevProofs.cpp (lines 769-1163) and of the data
it works on (/repo/include/regevProofs.hpp): `ReadyToVerify`, `ReadyToProve`, `VerifierData`,
`ProverData`.

Group operations are those of the abstract `F`-module `G` (the code's point operators are compared
with them in C62).  `assert(...)` is modelled as an exception: the model is of a build in which
assertions are enabled.  The `#ifdef DEBUGGING` blocks are not compiled and not modelled.
-/
import Verif.Model.Transcript
import Verif.Model.RegevUtils
import Verif.Model.Bulletproof

namespace Verif

/-- The bytes of a C string literal (no file: C++ string literals used as labels). -/
def str (s : String) : Bytes := s.toUTF8.data.toList

/-- One value per committed block: the commitments `dCompHiCom, ...` of `VerifierData`
(regevProofs.hpp:195-200) or the commitment randomness `dCompHiRnd, ...` of `ProverData`
(regevProofs.hpp:256-262). -/
structure Blocks (α : Type) where
  dCompHi : α
  dPadHi : α
  dCompLo : α
  dPadLo : α
  rComp : α
  rPad : α
  eComp1Hi : α
  ePad1Hi : α
  eComp1Lo : α
  ePad1Lo : α
  eComp2Hi : α
  ePad2Hi : α
  eComp2Lo : α
  ePad2Lo : α
  sk2Comp : α
  sk2Pad : α
  kCompHi : α
  kPadHi : α
  kCompLo : α
  kPadLo : α
  sk1 : α
  sk2 : α
  r : α
  pt1 : α
  pt2 : α
  y : α
  w : α
  deriving DecidableEq, Repr

/-- The part of `VerifierData` (regevProofs.hpp:154-248) that changes while proofs are built, with
the generators and indexes: `Gs`, `Hs`, the indexes, the commitments, the constraints, the vector
`z` of the smallness proof and the Merlin transcript `*mer`.  The public parameters are in
`Params` (Model/RegevProofs.lean). -/
structure VerifierData (F G St : Type) where
  Gs : List G
  Hs : List G
  ix : Indexes
  com : Blocks G
  linConstr : List (LinConstraint F)
  normConstr : List (QuadConstraint F)
  z : List (Elt F 2)
  mer : St

/-- `ProverData`, regevProofs.hpp:252-282. -/
structure ProverData (F : Type) where
  rnd : Blocks F
  compressed : List (Elt F 2)
  linWitness : PtxtVec F
  quadWitnessG : PtxtVec F
  quadWitnessH : PtxtVec F

/-- `ReadyToVerify`, regevProofs.hpp:321-349. -/
structure ReadyToVerify (F G : Type) where
  linCnstr : LinConstraint F
  quadCnstr : QuadConstraint F
  as : PtxtVec F
  bs : PtxtVec F
  rVec : List F
  uVec : List F
  linCom : G
  quadCom : G
  deltaG : PtxtVec F
  deltaH : PtxtVec F
  linGs : List G
  linStmnt : List F
  quadGs : List G
  quadHs : List G
  offstG : List F
  offstH : List F

/-- `ReadyToProve`, regevProofs.hpp:350-361. -/
structure ReadyToProve (F G : Type) extends ReadyToVerify F G where
  lComRnd : F
  qComRnd : F
  linWtns : List F
  quadWtnsG : List F
  quadWtnsH : List F

/-- `ReadyToVerify()` / `ReadyToProve()`: empty constraints and vectors, zero scalars, the identity
point (default constructors, regevProofs.hpp:321-361). -/
def ReadyToProve.empty (F G : Type) [Zero F] [Zero G] : ReadyToProve F G :=
  ⟨⟨⟨[], 0⟩, ⟨[], 0⟩, [], [], [], [], 0, 0, [], [], [], [], [], [], [], []⟩, 0, 0, [], [], []⟩

section
variable {F G : Type} [Field F] [DecidableEq F] [AddCommGroup G] [Module F G]

omit [DecidableEq F] in
/-- `m[i] op= s` on a `std::map<size_t,Scalar>`: a missing entry is created with value zero
first. -/
def mapModify (f : F → F) : PtxtVec F → ℕ → PtxtVec F
  | [], i => [(i, f 0)]
  | p :: m, i =>
    if i < p.1 then (i, f 0) :: p :: m
    else if i = p.1 then (p.1, f p.2) :: m
    else p :: mapModify f m i

/-- The inner loop of step 2b, regevProofs.cpp:789-790: `for (int idx: cnstr.indexes)
linCnstr.terms[idx] /= rVec[i]`.  The index goes through an `int`.  Division inverts the scalar
first, which throws for zero (scalar25519.hpp:112-116). -/
def divTerms (r : F) : List ℕ → PtxtVec F → Res (PtxtVec F)
  | [], m => .ok m
  | i :: is, m =>
    if r = 0 then .throw else divTerms r is (mapModify (· * r⁻¹) m (throughInt i))

/-- The outer loop of step 2b, regevProofs.cpp:787-791: constraint `i` and `rVec[i]`, for `i` below
`rVec.size()`. -/
def divLoop : List F → List (QuadConstraint F) → PtxtVec F → Res (PtxtVec F)
  | [], _, m => .ok m
  | _ :: _, [], _ => .ub
  | r :: rs, c :: cs, m => do divLoop rs cs (← divTerms r c.indexes m)

/-- Step 2c, regevProofs.cpp:798-827, and the indexes of the norm constraints,
regevProofs.hpp:215-217: the ten `...Com` of the compressed vectors absorb the padding and are
multiplied by `rVec[i]`. -/
def scaleComs (com : Blocks G) (rVec : List F) : Res (Blocks G) := do
  let dCompHi := (← rd rVec 0) • (com.dCompHi + com.dPadHi)
  let dCompLo := (← rd rVec 1) • (com.dCompLo + com.dPadLo)
  let rComp := (← rd rVec 2) • (com.rComp + com.rPad)
  let eComp1Hi := (← rd rVec 3) • (com.eComp1Hi + com.ePad1Hi)
  let eComp1Lo := (← rd rVec 4) • (com.eComp1Lo + com.ePad1Lo)
  let eComp2Hi := (← rd rVec 5) • (com.eComp2Hi + com.ePad2Hi)
  let eComp2Lo := (← rd rVec 6) • (com.eComp2Lo + com.ePad2Lo)
  let sk2Comp := (← rd rVec 7) • (com.sk2Comp + com.sk2Pad)
  let kCompHi := (← rd rVec 8) • (com.kCompHi + com.kPadHi)
  let kCompLo := (← rd rVec 9) • (com.kCompLo + com.kPadLo)
  .ok { com with dCompHi, dCompLo, rComp, eComp1Hi, eComp1Lo, eComp2Hi, eComp2Lo, sk2Comp,
                 kCompHi, kCompLo }

/-- `ReadyToVerify::aggregateVerifier1`, regevProofs.cpp:769-838: the updated object and
verifier data.  `tie` is the unspecified choice of the priority queue (see `LinConstraint.merge`).
-/
def aggregateVerifier1 (E : Env F G) (tie : List (CompIter F) → ℕ) (v : ReadyToVerify F G)
    (vd : VerifierData F G E.St) : Res (ReadyToVerify F G × VerifierData F G E.St) := do
  let ch1 := E.newChallenge vd.mer (str "aggregateLinear")
  let rVec1 ← powerVector ch1.1 vd.linConstr.length
  let linCnstr ← LinConstraint.merge tie vd.linConstr rVec1
  let ch2 := E.newChallenge ch1.2 (str "aggregateNorms")
  let rVec ← powerVector ch2.1 vd.normConstr.length
  let quadCnstr ← QuadConstraint.merge vd.normConstr rVec
  let terms ← divLoop rVec vd.normConstr linCnstr.terms
  let sp := splitPtxtVec terms quadCnstr.indexes
  if sp.2.2 ≠ vd.ix.w then .throw else
    let com ← scaleComs vd.com rVec
    let linCom := com.pt1 + com.sk1 + com.pt2 + com.r + com.sk2 + com.y
    let quadCom := com.dCompHi + com.dCompLo + com.rComp + com.eComp1Hi + com.eComp1Lo
      + com.eComp2Hi + com.eComp2Lo + com.sk2Comp + com.kCompHi + com.kCompLo
    .ok ({ v with linCnstr := { linCnstr with terms := terms }, quadCnstr, rVec,
                  as := sp.1, bs := sp.2.1, linCom, quadCom },
         { vd with com, mer := ch2.2 })

/-- The loop of step 4b, regevProofs.cpp:1054-1058: `A -= aPair.second * uVec[idx++]`. -/
def subtractAU : PtxtVec F → List F → F → Res F
  | [], _, A => .ok A
  | _ :: _, [], _ => .throw
  | p :: as, u :: us, A => subtractAU as us (A - p.2 * u)

/-- The loop of step 4c, regevProofs.cpp:1074-1080, with `rho` already negated: the new `as`,
`deltaG` and `deltaH`. -/
def offsetLoop (negRho : F) : PtxtVec F → List F → PtxtVec F → PtxtVec F →
    Res (PtxtVec F × PtxtVec F × PtxtVec F)
  | [], _, dG, dH => .ok ([], dG, dH)
  | _ :: _, [], _, _ => .ub
  | p :: as, u :: us, dG, dH => do
    let p' := (p.1, p.2 * negRho - u)
    let t ← offsetLoop negRho as us (mapInsert dG p') (mapInsert dH (p.1, u))
    .ok (p' :: t.1, t.2)

/-- `ReadyToVerify::aggregateVerifier2`, regevProofs.cpp:1025-1083. -/
def aggregateVerifier2 (E : Env F G) (v : ReadyToVerify F G) (vd : VerifierData F G E.St) :
    Res (ReadyToVerify F G × VerifierData F G E.St) := do
  let ch1 := E.newChallenge vd.mer (str "enforceNorm")
  let uVec ← powerVector ch1.1 v.quadCnstr.indexes.length
  if uVec.length ≠ v.as.length then .throw else
    let eq1 := v.quadCnstr.equalsTo - (← innerProduct uVec uVec uVec.length)
    let ch2 := E.newChallenge ch1.2 (str "separareLinQuad")
    let rho := ch2.1
    let indexes := setInsert v.quadCnstr.indexes vd.ix.w
    let A ← subtractAU v.as uVec v.linCnstr.equalsTo
    let t ← offsetLoop (-rho) v.as uVec [] []
    .ok ({ v with linCnstr := ⟨v.bs, 0⟩, quadCnstr := ⟨indexes, eq1 + rho * A⟩, uVec, as := t.1,
                  deltaG := mapPut t.2.1 vd.ix.w 0, deltaH := mapPut t.2.2 vd.ix.w (-rho) },
         { vd with mer := ch2.2 })

omit [DecidableEq F] in
/-- The inner loop of regevProofs.cpp:851-852: `pd.quadWitnessG[idx] *= rVec[i]`. -/
def mulTerms (r : F) (is : List ℕ) (m : PtxtVec F) : PtxtVec F :=
  is.foldl (mapModify (· * r)) m

omit [DecidableEq F] in
/-- The loop of regevProofs.cpp:850-853. -/
def mulLoop : List F → List (QuadConstraint F) → PtxtVec F → Res (PtxtVec F)
  | [], _, m => .ok m
  | _ :: _, [], _ => .ub
  | r :: rs, c :: cs, m => mulLoop rs cs (mulTerms r c.indexes m)

/-- regevProofs.cpp:855-884: the randomness of the ten commitments changes like the commitments. -/
def scaleRnds (rnd : Blocks F) (rVec : List F) : Res (Blocks F) := do
  let dCompHi := (rnd.dCompHi + rnd.dPadHi) * (← rd rVec 0)
  let dCompLo := (rnd.dCompLo + rnd.dPadLo) * (← rd rVec 1)
  let rComp := (rnd.rComp + rnd.rPad) * (← rd rVec 2)
  let eComp1Hi := (rnd.eComp1Hi + rnd.ePad1Hi) * (← rd rVec 3)
  let eComp1Lo := (rnd.eComp1Lo + rnd.ePad1Lo) * (← rd rVec 4)
  let eComp2Hi := (rnd.eComp2Hi + rnd.ePad2Hi) * (← rd rVec 5)
  let eComp2Lo := (rnd.eComp2Lo + rnd.ePad2Lo) * (← rd rVec 6)
  let sk2Comp := (rnd.sk2Comp + rnd.sk2Pad) * (← rd rVec 7)
  let kCompHi := (rnd.kCompHi + rnd.kPadHi) * (← rd rVec 8)
  let kCompLo := (rnd.kCompLo + rnd.kPadLo) * (← rd rVec 9)
  .ok { rnd with dCompHi, dCompLo, rComp, eComp1Hi, eComp1Lo, eComp2Hi, eComp2Lo, sk2Comp,
                 kCompHi, kCompLo }

omit [DecidableEq F] in
/-- The two lock-step loops of regevProofs.cpp:981-988 and 990-997, with their assertions:
`wit[i] -= delta[i]`. -/
def subLock : PtxtVec F → PtxtVec F → Res (PtxtVec F)
  | [], [] => .ok []
  | p :: m, d :: ds =>
    if p.1 ≠ d.1 then .throw else do .ok ((p.1, p.2 - d.2) :: (← subLock m ds))
  | _, _ => .throw

omit [Field F] [DecidableEq F] in
/-- regevProofs.cpp:1004-1015: erase from the witness the entries that are not matched, in order,
with a term. -/
def pruneLoop : PtxtVec F → PtxtVec F → PtxtVec F
  | [], _ => []
  | _ :: _, [] => []
  | p :: wit, t :: ts =>
    if t.1 ≠ p.1 then pruneLoop wit (t :: ts) else p :: pruneLoop wit ts

/-- `ReadyToProve::aggregateProver`, regevProofs.cpp:840-1023; `wRnd` is the fresh randomness of
the commitment to `w`. -/
def aggregateProver (E : Env F G) (tie : List (CompIter F) → ℕ) (wRnd : F)
    (v : ReadyToProve F G) (vd : VerifierData F G E.St) (pd : ProverData F) :
    Res (ReadyToProve F G × VerifierData F G E.St × ProverData F) := do
  let (v1, vd) ← aggregateVerifier1 E tie v.toReadyToVerify vd
  let qG ← mulLoop v1.rVec vd.normConstr pd.quadWitnessG
  let rnd ← scaleRnds pd.rnd v1.rVec
  let lComRnd := rnd.pt1 + rnd.sk1 + rnd.pt2 + rnd.r + rnd.sk2 + rnd.y
  let qComRnd := rnd.dCompHi + rnd.dCompLo + rnd.rComp + rnd.eComp1Hi + rnd.eComp1Lo
    + rnd.eComp2Hi + rnd.eComp2Lo + rnd.sk2Comp + rnd.kCompHi + rnd.kCompLo
  let vd := { vd with linConstr := vd.linConstr.map fun _ => ⟨[], 0⟩,
                      normConstr := vd.normConstr.map fun _ => ⟨[], 0⟩ }
  let w := innerProductMap v1.bs pd.linWitness
  let qG := mapPut qG vd.ix.w w
  let lW := mapPut pd.linWitness vd.ix.w w
  if vd.ix.w + 1 ≠ vd.Gs.length then .throw else
    let wG ← rd vd.Gs vd.ix.w
    let wCom := wRnd • E.base + w • wG
    let v1 := { v1 with linCom := v1.linCom + wCom, quadCom := v1.quadCom + wCom,
                        bs := mapPut v1.bs vd.ix.w (-1) }
    let vd := { vd with com := { vd.com with w := wCom } }
    let (v2, vd) ← aggregateVerifier2 E v1 vd
    let qH := mapPut qG vd.ix.w 0
    let qG ← subLock qG v2.deltaG
    let qH ← subLock qH v2.deltaH
    let lW := pruneLoop lW v2.linCnstr.terms
    .ok ({ toReadyToVerify := { v2 with rVec := [], uVec := [], as := [], bs := [] },
           lComRnd := lComRnd + wRnd, qComRnd := qComRnd + wRnd,
           linWtns := v.linWtns, quadWtnsG := v.quadWtnsG, quadWtnsH := v.quadWtnsH },
         vd,
         { pd with rnd := { rnd with w := wRnd }, linWitness := lW, quadWitnessG := qG,
                   quadWitnessH := qH })

/-- The part of `ReadyToProve::aggregateProver` (regevProofs.cpp:840-1023) that works on public data
only: `aggregateVerifier1`, adding the commitment to `w` (lines 928-936) and `aggregateVerifier2`.
It is what a verifier who receives the commitment `wCom` computes; the repository declares no other
verifier for these proofs.  `Props/Aggregate.lean` proves that the prover computes exactly this. -/
def publicStatement (E : Env F G) (tie : List (CompIter F) → ℕ) (v : ReadyToVerify F G)
    (vd : VerifierData F G E.St) (wCom : G) : Res (ReadyToVerify F G × E.St) := do
  let (v1, vd) ← aggregateVerifier1 E tie v vd
  let v1 := { v1 with linCom := v1.linCom + wCom, quadCom := v1.quadCom + wCom,
                      bs := mapPut v1.bs vd.ix.w (-1) }
  let (v2, vd) ← aggregateVerifier2 E v1 vd
  .ok (v2, vd.mer)

omit [Field F] [DecidableEq F] [AddCommGroup G] [Module F G] in
/-- The loop of `flattenLinVer`, regevProofs.cpp:1090-1093. -/
def flattenLinLoop (Gs : List G) : PtxtVec F → Res (List G × List F)
  | [] => .ok ([], [])
  | p :: ts => do
    let g ← rd Gs p.1
    let t ← flattenLinLoop Gs ts
    .ok (g :: t.1, p.2 :: t.2)

/-- `ReadyToVerify::flattenLinVer`, regevProofs.cpp:1085-1096. -/
def flattenLinVer {St : Type} (v : ReadyToVerify F G) (vd : VerifierData F G St) :
    Res (ReadyToVerify F G) := do
  let t ← flattenLinLoop vd.Gs v.linCnstr.terms
  .ok { v with linGs := t.1, linStmnt := t.2, linCnstr := { v.linCnstr with terms := [] } }

omit [Field F] [DecidableEq F] [AddCommGroup G] [Module F G] in
/-- The H generator of variable `i`, regevProofs.cpp:1106-1107, when `quadHs` has `k` entries so
far: for `wIdx` the code reads `Hs[quadHs.size()-1]`; with an empty `quadHs` the subscript is
`SIZE_MAX`, out of bounds. -/
def quadH (Hs : List G) (w i k : ℕ) : Res G :=
  if i ≠ w then rd Hs i else if k = 0 then .ub else rd Hs (k - 1)

/-- The loop of `flattenQuadVer`, regevProofs.cpp:1104-1110; `gs, hs, oG, oH` are the contents of
`quadGs, quadHs, offstG, offstH` so far. -/
def flattenQuadLoop (Gs Hs : List G) (w : ℕ) (dG dH : PtxtVec F) :
    List ℕ → List G → List G → List F → List F → Res (List G × List G × List F × List F)
  | [], gs, hs, oG, oH => .ok (gs, hs, oG, oH)
  | i :: is, gs, hs, oG, oH => do
    let g ← rd Gs i
    let h ← quadH Hs w i hs.length
    flattenQuadLoop Gs Hs w dG dH is (gs ++ [g]) (hs ++ [h])
      (oG ++ [(mapFind dG i).getD 0]) (oH ++ [(mapFind dH i).getD 0])

/-- `ReadyToVerify::flattenQuadVer`, regevProofs.cpp:1097-1111.  (`deltaG[i]` would also create a
missing entry; the maps are not used afterwards.) -/
def flattenQuadVer {St : Type} (v : ReadyToVerify F G) (vd : VerifierData F G St) :
    Res (ReadyToVerify F G) := do
  let t ← flattenQuadLoop vd.Gs vd.Hs vd.ix.w v.deltaG v.deltaH v.quadCnstr.indexes [] [] [] []
  .ok { v with quadGs := t.1, quadHs := t.2.1, offstG := t.2.2.1, offstH := t.2.2.2 }

/-- `ReadyToProve::flattenLinPrv`, regevProofs.cpp:1113-1129. -/
def flattenLinPrv {St : Type} (v : ReadyToProve F G) (vd : VerifierData F G St) (pd : ProverData F) :
    Res (ReadyToProve F G × ProverData F) :=
  if pd.linWitness.length ≠ v.linCnstr.terms.length then .throw else do
    let v1 ← flattenLinVer v.toReadyToVerify vd
    .ok ({ v with toReadyToVerify := v1, linWtns := pd.linWitness.map Prod.snd },
         { pd with linWitness := [] })

omit [Field F] [DecidableEq F] in
/-- The loop of `flattenQuadPrv`, regevProofs.cpp:1139-1147, with its assertions. -/
def flattenWitLoop : PtxtVec F → PtxtVec F → Res (List F × List F)
  | [], [] => .ok ([], [])
  | p :: m, d :: ds =>
    if p.1 ≠ d.1 then .throw else do
      let t ← flattenWitLoop m ds
      .ok (p.2 :: t.1, d.2 :: t.2)
  | _, _ => .throw

/-- `ReadyToProve::flattenQuadPrv`, regevProofs.cpp:1132-1163. -/
def flattenQuadPrv {St : Type} (v : ReadyToProve F G) (vd : VerifierData F G St) (pd : ProverData F) :
    Res (ReadyToProve F G × ProverData F) := do
  let v1 ← flattenQuadVer v.toReadyToVerify vd
  let t ← flattenWitLoop pd.quadWitnessG pd.quadWitnessH
  .ok ({ v with toReadyToVerify := v1, quadWtnsG := t.1, quadWtnsH := t.2 },
       { pd with quadWitnessG := [], quadWitnessH := [] })

end
end Verif
