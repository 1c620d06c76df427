/-
Model of /repo/include/regevEnc.hpp and /repo/src/regev/regevEnc.cpp: multi-recipient Regev
encryption over `Z_q[X]/(X^ell+1)`.

`q` is the modulus `P`, `ell` the degree and `delta` the integer `Delta` (regevEnc.cpp:41-58; in
the library `P = 2^252+27742317777372353535851937790883648493`, `ell = 2`, `Delta = 2^126`).
Random bits are arguments of the functions that draw them.  The CRS is an argument (the code
either expands it from the tag or gets it from the caller); hashes of the keys are not modelled.
-/
import Verif.Model.RegevUtils
import Mathlib.Analysis.SpecialFunctions.Log.Base

namespace Verif.Regev

/-- `GlobalKey::P`, regevEnc.cpp:43-45. -/
def P : ℕ := 2 ^ 252 + 27742317777372353535851937790883648493
/-- `GlobalKey::ell`, regevEnc.hpp:54. -/
def ell : ℕ := 2
/-- `Delta`, regevEnc.cpp:55: `1 << (252/ell)`. -/
def delta : ℕ := 2 ^ (252 / ell)

section
variable {q ell : ℕ}

/-- Vectors and matrices of ring elements (`EVector`, `EMatrix`). -/
abbrev EVec (q ell : ℕ) := List (Elt (ZMod q) ell)
abbrev EMat (q ell : ℕ) := List (EVec q ell)

/-- `g = (1, Delta, .., Delta^(ell-1))`, regevEnc.cpp:59-69. -/
def g (q ell delta : ℕ) : Elt (ZMod q) ell := ⟨fun i => (delta : ZMod q) ^ i.val⟩

/-- `innerProduct(EVector,EVector)`, algebra.hpp:163-167 (up to the shorter length). -/
def ip (a b : EVec q ell) : Elt (ZMod q) ell :=
  (List.zipWith (· * ·) a b).foldl (· + ·) 0

/-- `A * v` (NTL `mul(vec,mat,vec)`, throws on a dimension mismatch); every row is as long as the
first one. -/
def matVec (A : EMat q ell) (cols : ℕ) (v : EVec q ell) : Res (EVec q ell) :=
  if v.length ≠ cols then .throw else .ok (A.map fun row => ip row v)

/-- `v * A` (NTL `mul(vec,vec,mat)`, throws on a dimension mismatch). -/
def vecMat (v : EVec q ell) (A : EMat q ell) (cols : ℕ) : Res (EVec q ell) :=
  if v.length ≠ A.length then .throw
  else .ok ((List.range cols).map fun j => ip v (A.map fun row => row.getD j 0))

/-- `GlobalKey`, regevEnc.hpp:38-74.  The two hashes and the tag are not modelled. -/
structure GlobalKey (q ell : ℕ) where
  kay : ℕ
  enn : ℕ
  tee : ℕ
  sigmaEnc1 : ℕ
  sigmaEnc2 : ℕ
  nPks : ℕ
  A : EMat q ell
  B : EMat q ell

/-- `GlobalKey::GlobalKey`, regevEnc.cpp:95-128.  `crs i j` is the CRS, given or expanded from the
tag.  `assert(tee>0)` aborts the program: it is `throw` here. -/
def GlobalKey.new (k n sigma1 sigma2 : ℤ) (crs : ℕ → ℕ → Elt (ZMod q) ell) :
    Res (GlobalKey q ell) :=
  if k ≤ 0 ∨ n ≤ 0 ∨ sigma1 ≤ 1 ∨ sigma2 ≤ 2 then .throw
  else
    let tee := ((n.toNat - 1) / (2 * ell)) * ell
    if tee = 0 then .throw
    else .ok {
      kay := k.toNat, enn := n.toNat, tee := tee, sigmaEnc1 := sigma1.toNat,
      sigmaEnc2 := sigma2.toNat, nPks := 0,
      A := (List.range k.toNat).map fun i => (List.range k.toNat).map fun j => crs i j,
      B := List.replicate n.toNat (List.replicate k.toNat 0) }

/-- `GlobalKey::addPK`, regevEnc.cpp:143-157: the new state of the key and the result. -/
def GlobalKey.addPK (gk : GlobalKey q ell) (pk : EVec q ell) : GlobalKey q ell × Res ℕ :=
  if pk.length ≠ gk.kay then (gk, .throw)
  else
    let idx := gk.nPks
    let gk1 := { gk with nPks := gk.nPks + 1 }
    if idx ≥ gk.enn then ({ gk1 with nPks := gk1.nPks - 1 }, .throw)
    else ({ gk1 with B := gk1.B.set idx pk }, .ok idx)

/-! ### Random small elements -/

/-- `BoundedSizeScalar(n).randomize`, regevEnc.hpp:195-201: `bits` are the `n` random bits, `sign`
the random bit that selects the negated value. -/
def boundedScalar (n : ℕ) (bits : ℕ) (sign : Bool) : ZMod q :=
  let zz : ℤ := (bits % 2 ^ n : ℕ)
  ((if sign then -zz else zz : ℤ) : ZMod q)

/-- `BoundedSizeElement(n).randomize`, regevEnc.hpp:213-221. -/
def boundedElement (n : ℕ) (rnd : ℕ → ℕ × Bool) : Elt (ZMod q) ell :=
  ⟨fun i => boundedScalar n (rnd i.val).1 (rnd i.val).2⟩

/-- The randomness of one rejection-sampling loop: trial, entry and coefficient to random bits. -/
abbrev Rnd := ℕ → ℕ → ℕ → ℕ × Bool

/-- The rejection-sampling loops, regevEnc.cpp:172-192, 221-228, 243-249, 253-259: vectors of `len`
elements of `n` bits are drawn until the squared norm is at most `bound`; throws after `tries`
failures. -/
def sampleLoop (len n : ℕ) (bound : ℤ) (rnd : Rnd) : ℕ → ℕ → Res (EVec q ell)
  | _, 0 => .throw
  | t, k + 1 =>
    let v : EVec q ell := (List.range len).map fun i => boundedElement n (rnd t i)
    if normSquaredE v ≤ bound then .ok v else sampleLoop len n bound rnd (t + 1) k

/-- `rho`, regevEnc.hpp:55. -/
def rho : ℕ := 2

/-- `GlobalKey::internalKeyGen`, regevEnc.cpp:160-198: (sk, pk, noise).  Each loop makes up to 51
trials (`nTrials > 50`). -/
def GlobalKey.keyGen (gk : GlobalKey q ell) (rsk rno : Rnd) :
    Res (EVec q ell × EVec q ell × EVec q ell) := do
  let sk ← sampleLoop gk.kay rho (4 * gk.kay * ell) rsk 0 51
  let noise ← sampleLoop gk.kay gk.sigmaEnc1 (2 ^ (2 * gk.sigmaEnc1) * gk.kay * ell / 2) rno 0 51
  let skA ← vecMat sk gk.A gk.kay
  .ok (sk, List.zipWith (· + ·) skA noise, noise)

/-- `GlobalKey::internalEncrypt`, regevEnc.cpp:201-266: ((ctxt1, ctxt2), (r, e1, e2)).  The loops
for e1 and e2 increment their counter twice per round, hence only 25 trials. -/
def GlobalKey.encrypt (delta : ℕ) (gk : GlobalKey q ell) (ptxt : List (ZMod q)) (rr r1 r2 : Rnd) :
    Res ((EVec q ell × EVec q ell) × (EVec q ell × EVec q ell × EVec q ell)) :=
  if gk.A.length ≠ gk.kay ∨ gk.B.length ≠ gk.enn then .throw
  else if ptxt.length ≠ gk.B.length then .throw
  else do
    let r ← sampleLoop gk.kay rho (4 * gk.kay * ell) rr 0 51
    let c1 ← matVec gk.A gk.kay r
    let c2 ← matVec gk.B gk.kay r
    let e1 ← sampleLoop gk.kay gk.sigmaEnc1 (2 ^ (2 * gk.sigmaEnc1) * gk.kay * ell / 2) r1 0 25
    let e2 ← sampleLoop gk.enn gk.sigmaEnc2 (2 ^ (2 * gk.sigmaEnc2) * gk.enn * ell / 2) r2 0 25
    .ok ((List.zipWith (· + ·) c1 e1,
          List.zipWith (· + ·) c2 (List.zipWith (fun x e => x • g q ell delta + e) ptxt e2)),
         (r, e1, e2))

/-! ### Decoding and decryption -/

/-- The differences `z_i·Delta - z_(i+1)` as balanced integers, regevEnc.cpp:312-316. -/
def decodeDiffs (delta : ℕ) : List (ZMod q) → List ℤ
  | z0 :: z1 :: zs => balanced (z0 * (delta : ZMod q) - z1) :: decodeDiffs delta (z1 :: zs)
  | _ => []

/-- The back substitution of regevEnc.cpp:334-337: `e[i] = (e[i+1] - d[i])/Delta`, from the last
entry down. -/
def backSub (delta : ℕ) (last : ℤ) : List ℤ → List ℤ
  | [] => [last]
  | d :: ds => ((backSub delta last ds).headD 0 - d).fdiv delta :: backSub delta last ds

/-- The noise vector computed by `decodePtxt`, regevEnc.cpp:304-337. -/
def decodeNoise (delta : ℕ) (ell : ℕ) (z : List (ZMod q)) : List ℤ :=
  let d := decodeDiffs delta z
  -- lines 319-323
  let tmp := d.foldl (fun (tmp x : ℤ) => tmp * (delta : ℤ) + x) 0
  -- lines 326-330
  let D : ℤ := (delta : ℤ) ^ (ell - 1)
  let tmp := tmp.fmod D
  let tmp := if tmp ≥ D.fdiv 2 then tmp - D else if tmp < (-D).fdiv 2 then tmp + D else tmp
  backSub delta tmp d

/-- `GlobalKey::decodePtxt`, regevEnc.cpp:304-344: (plaintext, noise). -/
def decodePtxt (delta : ℕ) (noisy : Elt (ZMod q) ell) : ZMod q × Elt (ZMod q) ell :=
  let e := decodeNoise delta ell noisy.toList
  (- noisy.coeff 0 - ((e.getD 0 0 : ℤ) : ZMod q), ⟨fun i => ((e.getD i 0 : ℤ) : ZMod q)⟩)

/-- `GlobalKey::internalDecrypt` (and `decrypt`), regevEnc.cpp:271-297: (plaintext, noise). -/
def GlobalKey.decrypt (delta : ℕ) (gk : GlobalKey q ell) (sk : EVec q ell) (idx : ℤ)
    (ct : EVec q ell × EVec q ell) : Res (ZMod q × Elt (ZMod q) ell) :=
  if sk.length ≠ gk.kay then .throw
  else if ct.1.length ≠ gk.kay ∨ ct.2.length ≠ gk.enn then .throw
  else if idx < 0 ∨ idx ≥ gk.enn then .throw
  else do
    let c ← rd ct.2 idx.toNat
    .ok (decodePtxt delta (ip sk ct.1 - c))

end

/-! ### Parameters -/

/-- The search loop of `KeyParams::setParams`, regevEnc.cpp:80-89, for `sigmaEnc1` counting down;
`L` is `lognSqrtT`.  Result: (sigmaEnc1, k, kk).  `logSqrtK = ceil(log2(kk)/2)` is written in real
arithmetic (the code uses doubles). -/
noncomputable def paramLoop (ell : ℕ) (start L : ℤ) : ℕ → ℤ × ℤ × ℤ
  | 0 => (0, 0, 0)
  | s + 1 =>
    let sigma : ℤ := (s : ℤ) + 1
    let kk0 : ℤ := ⌈(37.5 : ℝ) * ((252 + 2 - sigma : ℤ) : ℝ)⌉
    let k := (kk0 + ell - 1) / ell
    let kk := ell * k
    let logSqrtK : ℤ := ⌈Real.logb 2 (kk : ℝ) / 2⌉
    if start ≥ sigma + L + 10 + logSqrtK then (sigma, k, kk) else paramLoop ell start L s

/-- `KeyParams::setParams`, regevEnc.cpp:73-93: (k, sigmaEnc1, sigmaEnc2).  Real arithmetic instead
of doubles.  (`log(tt)` is the natural logarithm although the comment says base 2.)  When the loop
ends without success the code uses the last values it computed; that outcome is 0 here and is shown
not to occur. -/
noncomputable def setParams (ell n : ℕ) : ℤ × ℤ × ℤ :=
  let nn := n * ell
  let tt := (nn - 1) / 2
  let L : ℤ := ⌈Real.logb 2 (nn : ℝ) + Real.log (tt : ℝ) / 2⌉
  let start : ℤ := (252 * (ell - 1) : ℕ) / (ell : ℤ)
  let r := paramLoop ell start L (start - L - 11).toNat
  let gap : ℤ := ⌈Real.logb 2 ((124080 * r.2.2 * tt : ℤ) : ℝ) / 2⌉
  (r.2.1, r.1, r.1 + gap)

end Verif.Regev
