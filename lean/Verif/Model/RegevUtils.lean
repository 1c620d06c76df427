/-
Model of /repo/src/regev/regevProofs-utils.cpp, of the helpers of /repo/include/utils.hpp and of
`balanced` (/repo/include/algebra.hpp:219-235).

Scalars are `ZMod q` (NTL's `ZZ_p`, in the library `q = P`) where the code looks at their integer
representatives, and elements of any field `F` elsewhere.  Elements of the extension are `Elt`.
The two scalar types `ALGEBRA::Scalar` and `CRV25519::Scalar` hold the same residues and `conv`
between them (utils.hpp:57-65, by bytes) is the identity here.
-/
import Verif.Model.Elt
import Verif.Model.Constraints
import Verif.Model.FourSquares
import Verif.Model.Pedersen
import Mathlib.Data.ZMod.Basic

namespace Verif

/-! ### Integer representatives and norms -/

section
variable {q : ℕ}

/-- `balanced(Scalar)`, algebra.hpp:220-226: `rep > P/2 ? rep-P : rep`. -/
def balanced (s : ZMod q) : ℤ :=
  if (s.val : ℤ) > (q : ℤ) / 2 then (s.val : ℤ) - q else s.val

/-- `normSquaredBI`, regevProofs-utils.cpp:32-42, on representatives in `[0,P)`. -/
def normSquaredBI (q : ℕ) (vv : List ℤ) : ℤ :=
  let vv' := vv.map fun x => if x > (q : ℤ) / 2 then x - q else x
  (List.zipWith (· * ·) vv' vv').sum

/-- `normSquaredBigInt(SVector)`, regevProofs-utils.cpp:43-47. -/
def normSquaredS (v : List (ZMod q)) : ℤ := normSquaredBI q (v.map fun s => (s.val : ℤ))

/-- The coefficient vector of an element, `conv(SVector,Element)`, algebra.hpp:183-188. -/
def Elt.toList {F : Type} {ell : ℕ} (e : Elt F ell) : List F := List.ofFn e.c

/-- `conv(BIVector,EVector)`, algebra.hpp:189-195, and the loop of regevProofs-utils.cpp:51-52:
all coefficients, one element after the other. -/
def evecScalars {F : Type} {ell : ℕ} (v : List (Elt F ell)) : List F := v.flatMap Elt.toList

/-- `normSquaredBigInt(EVector)` and `normSquaredBigInt(Element*,len)`,
regevProofs-utils.cpp:48-59. -/
def normSquaredE {ell : ℕ} (v : List (Elt (ZMod q) ell)) : ℤ :=
  normSquaredBI q ((evecScalars v).map fun s => (s.val : ℤ))

/-- `lInftyNorm`, regevProofs-utils.cpp:61-71. -/
def lInftyNorm {ell : ℕ} (v : List (Elt (ZMod q) ell)) : ℤ :=
  (evecScalars v).foldl (fun ret s => if ret < |balanced s| then |balanced s| else ret) 0

/-! ### Two digits -/

/-- One coefficient of `breakTwoDigits`, regevProofs-utils.cpp:85-94: (hi, lo).  NTL's `%` and
`/` round towards minus infinity. -/
def twoDigits (x radix : ℤ) : ℤ × ℤ :=
  let half := radix.fdiv 2
  let lo := x.fmod radix
  let hi := (x - lo).fdiv radix
  if lo > half then (hi + 1, lo - radix)
  else if lo < -half then (hi - 1, lo + radix)
  else (hi, lo)

/-- `breakTwoDigits`, regevProofs-utils.cpp:75-101: (hi, lo).  A zero radix is a division by
zero, on which NTL throws. -/
def breakTwoDigits {ell : ℕ} (v : List (Elt (ZMod q) ell)) (radix : ℤ) :
    Res (List (Elt (ZMod q) ell) × List (Elt (ZMod q) ell)) :=
  if radix = 0 ∧ (evecScalars v) ≠ [] then .throw
  else .ok (v.map fun e => ⟨fun j => ((twoDigits (balanced (e.c j)) radix).1 : ZMod q)⟩,
            v.map fun e => ⟨fun j => ((twoDigits (balanced (e.c j)) radix).2 : ZMod q)⟩)

/-! ### Padding to an exact norm -/

/-- `PAD_SIZE`, regevProofs.hpp:50. -/
def PAD_SIZE : ℕ := 4

/-- `ceilDiv`, utils.hpp:42. -/
def ceilDiv (a b : ℕ) : ℕ := (a + b - 1) / b

/-- `pad2exactNorm(SVector,SVector,bound)`, regevProofs-utils.cpp:319-326: the new contents of
`pad`, of which four entries are written. -/
def pad2exactNormS (single : ℕ → Bool) (probPrime : ℤ → Bool) (v pad : List (ZMod q)) (bound : ℤ) :
    Res (List (ZMod q)) := do
  let four ← FourSq.decompose4 single probPrime (bound * bound - normSquaredS v)
  if pad.length < PAD_SIZE then .ub else
    let four' ← rdN four PAD_SIZE
    .ok (four'.map (fun (x : ℤ) => (x : ZMod q)) ++ pad.drop PAD_SIZE)

/-- `pad2exactNorm(Element*,len,padSpace,bound)`, regevProofs-utils.cpp:327-347: the first
`ceilDiv(4,ell)` elements of `padSpace` are overwritten with the four scalars in order and then
zeros. -/
def pad2exactNormE (single : ℕ → Bool) (probPrime : ℤ → Bool) {ell : ℕ}
    (v padSpace : List (Elt (ZMod q) ell)) (bound : ℤ) : Res (List (Elt (ZMod q) ell)) := do
  let four ← FourSq.decompose4 single probPrime (bound * bound - normSquaredE v)
  let extra := ceilDiv PAD_SIZE ell
  if padSpace.length < extra then .ub else
    let four' ← rdN four PAD_SIZE
    .ok ((List.range extra).map (fun i => (⟨fun j =>
        if i * ell + j.val < PAD_SIZE then ((four'.getD (i * ell + j.val) 0 : ℤ) : ZMod q) else 0⟩ :
          Elt (ZMod q) ell)) ++ padSpace.drop extra)

/-- `pad2exactNorm(EVector,EVector,bound)`, regevProofs-utils.cpp:348-353: `pad` is resized to
`ceilDiv(4,ell)` elements.  `&(v[0])` of an empty vector is undefined. -/
def pad2exactNormV (single : ℕ → Bool) (probPrime : ℤ → Bool) {ell : ℕ}
    (v : List (Elt (ZMod q) ell)) (bound : ℤ) : Res (List (Elt (ZMod q) ell)) :=
  if v = [] then .ub
  else pad2exactNormE single probPrime v (List.replicate (ceilDiv PAD_SIZE ell) 0) bound

end

/-! ### Power vectors -/

/-- The loop of `powerVector`, regevProofs-utils.cpp:408-409: `vec[i] = vec[i-1]*x`. -/
def powerLoop {R : Type} [Mul R] (x : R) : R → ℕ → List R
  | _, 0 => []
  | prev, n + 1 => (prev * x) :: powerLoop x (prev * x) n

/-- `powerVector`, regevProofs-utils.cpp:405-423 (three overloads).  `vec[0]` is written before
any test: undefined for an empty vector. -/
def powerVector {R : Type} [Mul R] [One R] (x : R) (len : ℕ) : Res (List R) :=
  if len = 0 then .ub else .ok (1 :: powerLoop x 1 (len - 1))

section
variable {F : Type} [Field F] [DecidableEq F] {ell : ℕ}

/-! ### Constraints over the extension ring -/

/-- One row of `expandConstraints`, regevProofs-utils.cpp:366-374. -/
def expandRow (a : Elt F ell) (idx i : ℕ) (c : LinConstraint F) : LinConstraint F :=
  (List.range ell).foldl (fun c j =>
    c.addTerm (idx + j) (if i ≥ j then a.coeff (i - j) else - a.coeff (i + ell - j))) c

/-- `expandConstraints(constrs,idx,a)`, regevProofs-utils.cpp:363-375.  `constrs` points to the
constraints; at least `ell` of them must be there. -/
def expandElt (constrs : List (LinConstraint F)) (idx : ℕ) (a : Elt F ell) :
    Res (List (LinConstraint F)) :=
  if constrs.length < ell then .ub
  else .ok (constrs.mapIdx fun i c => if i < ell then expandRow a idx i c else c)

/-- The loop of the vector version, regevProofs-utils.cpp:380-381. -/
def expandLoop : List (LinConstraint F) → ℕ → List (Elt F ell) → Res (List (LinConstraint F))
  | constrs, _, [] => .ok constrs
  | constrs, idx, a :: v => do
    let constrs' ← expandElt constrs idx a
    expandLoop constrs' (idx + ell) v

/-- The slice `v[from..to)`: undefined when it reaches past the end, empty when `to ≤ from`. -/
def slice {α : Type} (v : List α) (from_ : ℕ) (upto : Option ℕ) : Res (List α) :=
  let to' := upto.getD v.length
  if from_ < to' ∧ v.length < to' then .ub else .ok ((v.take to').drop from_)

/-- `expandConstraints(constrs,idx,v,from,to)`, regevProofs-utils.cpp:377-382; `upto = none` is the
default -1. -/
def expandConstraints (constrs : List (LinConstraint F)) (idx : ℕ) (v : List (Elt F ell))
    (from_ : ℕ := 0) (upto : Option ℕ := none) : Res (List (LinConstraint F)) := do
  let s ← slice v from_ upto
  expandLoop constrs idx s

/-- One constraint of `makeConstraints`, regevProofs-utils.cpp:389-394. -/
def makeRow (s : List (Elt F ell)) (idx j : ℕ) (c : LinConstraint F) : LinConstraint F :=
  (s.zipIdx).foldl (fun c p => c.addTerm (idx + p.2) (p.1.coeff j)) c

/-- `makeConstraints`, regevProofs-utils.cpp:384-396. -/
def makeConstraints (constrs : List (LinConstraint F)) (idx : ℕ) (v : List (Elt F ell))
    (from_ : ℕ := 0) (upto : Option ℕ := none) : Res (List (LinConstraint F)) :=
  if constrs.length < ell then .ub
  else do
    let s ← slice v from_ upto
    .ok (constrs.mapIdx fun j c => if j < ell then makeRow s idx j c else c)

/-- `setEqsTo`, regevProofs-utils.cpp:397-402. -/
def setEqsTo (constrs : List (LinConstraint F)) (e : Elt F ell) : Res (List (LinConstraint F)) :=
  if constrs.length < ell then .ub
  else .ok (constrs.mapIdx fun j c => if j < ell then { c with equalsTo := e.coeff j } else c)

/-! ### Vectors to maps -/

omit [Field F] [DecidableEq F] in
/-- `it = mymap.insert(it,tmp); conv(it->second, s)`, utils.hpp:97-98: the entry is inserted if
the key is new, and then its value is overwritten in any case. -/
def mapPut : List (ℕ × F) → ℕ → F → List (ℕ × F)
  | [], k, s => [(k, s)]
  | p :: m, k, s =>
    if k < p.1 then (k, s) :: p :: m
    else if k = p.1 then (p.1, s) :: m
    else p :: mapPut m k s

/-- The descending loop of `addSVec2Map`, utils.hpp:106-110, over the reversed vector; `key1` is
one more than `tmp.first` (whose wrapped value for an empty vector at offset 0 is never used). -/
def putDown : PtxtVec F → ℕ → List F → PtxtVec F
  | m, _, [] => m
  | m, key1, s :: l => putDown (mapPut m (key1 - 1) s) (key1 - 1) l

/-- `addSVec2Map`, utils.hpp:102-111. -/
def addSVec2Map (m : PtxtVec F) (v : List F) (offset : ℕ := 0) : PtxtVec F :=
  putDown m (offset + v.length) v.reverse

/-- `addEVec2Map`, utils.hpp:91-101: coefficient `j` of entry `i` goes to `offset + ell*i + j`. -/
def addEVec2Map (m : PtxtVec F) (v : List (Elt F ell)) (offset : ℕ := 0) : PtxtVec F :=
  putDown m (offset + v.length * ell) (evecScalars v).reverse

end

/-- `interval(from,to)`, utils.hpp:51-55 (a `std::set<int>`). -/
def interval (from_ upto : ℤ) : List ℤ := 
  (List.range (upto - from_).toNat).map fun (i : ℕ) => from_ + (i : ℤ)

/-- `addRange2Set`, utils.hpp:113-116: `interval` takes `int` arguments; negative elements wrap
around when they are inserted into a `std::set<size_t>`. -/
def addRange2Set (s : List ℕ) (from_ len : ℕ) : List ℕ :=
  setInsertAll s ((interval (toInt32 from_) (toInt32 ((from_ + len) % sizeMod))).map
    fun i => (i % (sizeMod : ℤ)).toNat)

/-! ### Indexes and generators -/

/-- `JLDIM`, regevProofs.hpp:54. -/
def JLDIM : ℕ := 256
/-- `LINYDIM`, regevProofs.hpp:56. -/
def LINYDIM : ℕ := 128

/-- The indexes of `VerifierData`, regevProofs.hpp:184-189. -/
structure Indexes where
  dCompHi : ℕ
  dPadHi : ℕ
  dCompLo : ℕ
  dPadLo : ℕ
  rComp : ℕ
  rPad : ℕ
  eComp1Hi : ℕ
  ePad1Hi : ℕ
  eComp1Lo : ℕ
  ePad1Lo : ℕ
  eComp2Hi : ℕ
  ePad2Hi : ℕ
  eComp2Lo : ℕ
  ePad2Lo : ℕ
  sk2Comp : ℕ
  sk2Pad : ℕ
  kCompHi : ℕ
  kPadHi : ℕ
  kCompLo : ℕ
  kPadLo : ℕ
  sk1 : ℕ
  sk2 : ℕ
  r : ℕ
  pt1 : ℕ
  pt2 : ℕ
  y : ℕ
  w : ℕ
  deriving DecidableEq, Repr

/-- `VerifierData::setIndexes`, regevProofs-utils.cpp:189-230.  The sums are computed in `int`;
overflow (undefined) is excluded by `setIndexes`. -/
def setIndexesNat (kay ell enn tee : ℕ) : Indexes :=
  let pt1Len := tee
  let skLen := kay * ell
  let pt2Len := enn
  let rLen := kay * ell
  let dCompHi := 0
  let dPadHi := dCompHi + JLDIM
  let dCompLo := dPadHi + PAD_SIZE
  let dPadLo := dCompLo + JLDIM
  let rComp := dPadLo + PAD_SIZE
  let rPad := rComp + JLDIM
  let eComp1Hi := rPad + PAD_SIZE
  let ePad1Hi := eComp1Hi + JLDIM
  let eComp1Lo := ePad1Hi + PAD_SIZE
  let ePad1Lo := eComp1Lo + JLDIM
  let eComp2Hi := ePad1Lo + PAD_SIZE
  let ePad2Hi := eComp2Hi + JLDIM
  let eComp2Lo := ePad2Hi + PAD_SIZE
  let ePad2Lo := eComp2Lo + JLDIM
  let sk2Comp := ePad2Lo + PAD_SIZE
  let sk2Pad := sk2Comp + JLDIM
  let kCompHi := sk2Pad + PAD_SIZE
  let kPadHi := kCompHi + JLDIM
  let kCompLo := kPadHi + PAD_SIZE
  let kPadLo := kCompLo + JLDIM
  let sk1 := kPadLo + PAD_SIZE
  let sk2 := sk1 + skLen
  let r := sk2 + skLen
  let pt1 := r + rLen
  let pt2 := pt1 + pt1Len
  let y := pt2 + pt2Len
  let w := y + LINYDIM
  { dCompHi, dPadHi, dCompLo, dPadLo, rComp, rPad, eComp1Hi, ePad1Hi, eComp1Lo, ePad1Lo,
    eComp2Hi, ePad2Hi, eComp2Lo, ePad2Lo, sk2Comp, sk2Pad, kCompHi, kPadHi, kCompLo, kPadLo,
    sk1, sk2, r, pt1, pt2, y, w }

/-- `VerifierData::setIndexes`, regevProofs-utils.cpp:189-230, in `int` arithmetic: undefined when
a sum or product exceeds `2^31-1` (all sums are at most the last one). -/
def setIndexes (kay ell enn tee : ℕ) : Res Indexes :=
  let ix := setIndexesNat kay ell enn tee
  if ix.w < 2 ^ 31 then .ok ix else .ub

/-- `VerifierData::prepareForNextProof`, regevProofs.hpp:226-227: the indexes of the two secret
keys are swapped. -/
def Indexes.swapSk (ix : Indexes) : Indexes := { ix with sk1 := ix.sk2, sk2 := ix.sk1 }

/-- `VerifierData::computeGenerators`, regevProofs-utils.cpp:233-247.  `getG`, `getH` are the
Pedersen generators. -/
def computeGenerators {G : Type} (getG getH : ℕ → G) (ix : Indexes) : List G × List G :=
  ((List.range (ix.w + 1)).map getG, (List.range ix.sk1).map getH ++ [getH ix.w])

/-! ### Commitments to slices -/

section
variable {F G : Type} [Field F] [AddCommGroup G] [Module F G] {ell : ℕ}

/-- `commit(SVector,...)`, regevProofs-utils.cpp:251-265; `r` is the randomness it draws.  The
loop writes `xes[i]` for `fromIdx ≤ i < toIdx` although `xes` has `toIdx-fromIdx` entries: out of
bounds as soon as `fromIdx > 0` and the slice is non-empty.  A negative length throws
(`std::length_error`, or the check above). -/
def commitS (base : G) (v : List F) (genIdx : ℕ) (Gs : List G) (r : F)
    (from_ : ℕ := 0) (upto : Option ℕ := none) : Res G :=
  let to' := upto.getD v.length
  if to' < from_ then .throw
  else if Gs.length < genIdx + (to' - from_) then .throw
  else if from_ < to' ∧ (v.length < to' ∨ 0 < from_) then .ub
  else commit base (Gs.drop genIdx) ((v.take to').drop from_) (to' - from_) r

/-- `commit(EVector,...)`, regevProofs-utils.cpp:266-284. -/
def commitE (base : G) (v : List (Elt F ell)) (genIdx : ℕ) (Gs : List G) (r : F)
    (from_ : ℕ := 0) (upto : Option ℕ := none) : Res G :=
  let to' := upto.getD v.length
  if to' < from_ then .throw
  else if Gs.length < genIdx + ell * (to' - from_) then .throw
  else if from_ < to' ∧ v.length < to' then .ub
  else commit base (Gs.drop genIdx) (evecScalars ((v.take to').drop from_)) (ell * (to' - from_)) r

/-- `commit2(EVector,...)`, regevProofs-utils.cpp:286-315: one commitment to the same values with
respect to the sums of the G and H generators. -/
def commit2E (base : G) (v : List (Elt F ell)) (genIdx : ℕ) (Gs Hs : List G) (r : F)
    (from_ : ℕ := 0) (upto : Option ℕ := none) : Res G :=
  let to' := upto.getD v.length
  if to' < from_ then .throw
  else if Gs.length < genIdx + ell * (to' - from_) ∨ Hs.length < genIdx + ell * (to' - from_) then
    .throw
  else if from_ < to' ∧ v.length < to' then .ub
  else
    let n := ell * (to' - from_)
    commit base (List.zipWith (· + ·) ((Gs.drop genIdx).take n) ((Hs.drop genIdx).take n))
      (evecScalars ((v.take to').drop from_)) n r

end
end Verif
