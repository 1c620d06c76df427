/-
Model of the places where the code computes with doubles and with NTL's `RR`: `KeyParams::setParams`
(src/regev/regevEnc.cpp:73-93), the first half of the constructor of `VerifierData`
(src/regev/regevProofs-utils.cpp:111-166) and `int(ceil(sqrt(..)))` (src/regev/regevProofs.cpp:64, 209, 210,
464).  The same formulas are in `Model/RegevEnc.lean`, `Model/Bounds.lean` and `Model/RegevProofs.lean` in exact
arithmetic; here every operation is one of a machine, in the order in which C++ carries them out.  What is
known about the machine is in `Spec/Doubles.lean`.
-/
import Verif.Model.Bounds

namespace Verif
open Regev

noncomputable section
variable {q : ℕ} [Fact q.Prime]

/-- The operations on doubles and on NTL's `RR` that the code uses (hardware, libm and NTL; not part of /repo).
Values are real numbers: infinities, signed zeros and NaN do not occur here. -/
structure Machine where
  /-- conversion of a literal, an `int`, a `long` or an `RR` to a double -/
  dbl : ℝ → ℝ
  add : ℝ → ℝ → ℝ
  sub : ℝ → ℝ → ℝ
  mul : ℝ → ℝ → ℝ
  div : ℝ → ℝ → ℝ
  sqrt : ℝ → ℝ
  log : ℝ → ℝ
  log2 : ℝ → ℝ
  /-- `to_RR(BigInt)` -/
  rr : ℤ → ℝ
  rrMul : ℝ → ℝ → ℝ
  rrDiv : ℝ → ℝ → ℝ
  rrLog : ℝ → ℝ

namespace Machine
variable (M : Machine)

/-- `multDbl`, include/algebra.hpp:198-205 (`to_ZZ(RR)` rounds down). -/
def multDbl (x : ℝ) (y : ℤ) : ℤ := ⌊M.rrMul (M.rr y) x⌋

/-- `log2BI`, include/algebra.hpp:206-208. -/
def log2BI (x : ℤ) : ℝ := M.dbl (M.rrDiv (M.rrLog (M.rr x)) (M.dbl 0.69314718056))

/-- `int(ceil(sqrt(n)))`, src/regev/regevProofs.cpp:64, 209, 210, 464. -/
def ceilSqrt (n : ℕ) : ℤ := ⌈M.sqrt (M.dbl n)⌉

/-- src/regev/regevProofs-utils.cpp:118-166, with the operations of the machine.  Simplified: the subtraction in
line 154, of two small integers in doubles, is exact; a negative `smlnsBits` is 0 (it is shown not to
occur); `delta` and `H` are only passed on. -/
def verifierBounds (delta : ℕ) (gk : GlobalKey q 2) (H : List (List (ZMod q))) : Res (Params q) :=
  -- lines 119-120
  let kk : ℕ := gk.kay * 2
  let nn : ℕ := gk.enn * 2
  -- lines 124-125
  let sig_kg : ℤ := 2 ^ gk.sigmaEnc1
  let sig_e2 : ℤ := 2 ^ gk.sigmaEnc2
  -- line 130
  let B_sk : ℤ := ⌈M.mul (M.dbl 2) (M.sqrt (M.dbl ((337 * kk : ℕ) : ℝ)))⌉
  -- line 135
  let B_kNoise := M.multDbl (M.sqrt (M.div (M.mul (M.dbl kk) (M.dbl 337)) (M.dbl 2))) sig_kg
  -- line 138
  let B_eNoise2 := M.multDbl (M.sqrt (M.div (M.mul (M.dbl nn) (M.dbl 337)) (M.dbl 2))) sig_e2
  -- line 145
  let B_dNoise := M.multDbl (M.mul (M.sqrt (M.dbl 337)) (M.dbl 1.7)) (sig_e2 * nn) +
    M.multDbl (M.sqrt (M.mul (M.mul (M.dbl kk) (M.dbl nn)) (M.dbl 377))) (24 * sig_kg)
  -- lines 148-150
  if B_sk ≥ B_kNoise ∨ B_kNoise ≥ B_eNoise2 ∨ B_eNoise2 ≥ B_dNoise then .throw
  else
    -- lines 154-155
    let radixBits : ℤ := ⌈M.div (M.log2BI B_kNoise) (M.dbl 2)⌉ - 3
    -- lines 161-162
    let smlnsBits : ℤ := ⌈M.sub (M.add (M.log2 (M.mul (M.mul (M.dbl 9.75) (M.dbl 129)) (M.sqrt (M.dbl 2600))))
      (M.log2BI B_dNoise)) (M.dbl radixBits)⌉
    .ok { gk, delta, H, B_dNoise, B_sk, B_r := B_sk, B_eNoise1 := B_kNoise, B_eNoise2, B_kNoise
          -- line 165
          B_smallness := M.multDbl (M.div (M.dbl 128) (M.dbl 129)) (oneShl smlnsBits)
          smlnsBits := smlnsBits.toNat
          radix := oneShl radixBits }

/-- The search loop of `KeyParams::setParams`, src/regev/regevEnc.cpp:80-89, with the operations of the machine.
As in `paramLoop`, the end of the loop without success is (0, 0, 0). -/
def paramLoop (ell : ℕ) (start L : ℤ) : ℕ → ℤ × ℤ × ℤ
  | 0 => (0, 0, 0)
  | s + 1 =>
    let sigma : ℤ := (s : ℤ) + 1
    let kk0 : ℤ := ⌈M.mul (M.dbl 37.5) (M.dbl ((252 + 2 - sigma : ℤ) : ℝ))⌉
    let k := (kk0 + ell - 1) / ell
    let kk := ell * k
    let logSqrtK : ℤ := ⌈M.div (M.log2 (M.dbl (kk : ℝ))) (M.dbl 2)⌉
    if start ≥ sigma + L + 10 + logSqrtK then (sigma, k, kk) else paramLoop ell start L s

/-- `KeyParams::setParams`, src/regev/regevEnc.cpp:73-93, with the operations of the machine:
(k, sigmaEnc1, sigmaEnc2). -/
def setParams (ell n : ℕ) : ℤ × ℤ × ℤ :=
  let nn := n * ell
  let tt := (nn - 1) / 2
  let L : ℤ := ⌈M.add (M.log2 (M.dbl (nn : ℝ))) (M.div (M.log (M.dbl (tt : ℝ))) (M.dbl 2))⌉
  let start : ℤ := (252 * (ell - 1) : ℕ) / (ell : ℤ)
  let r := M.paramLoop ell start L (start - L - 11).toNat
  let gap : ℤ := ⌈M.div (M.log2 (M.dbl ((124080 * r.2.2 * tt : ℤ) : ℝ))) (M.dbl 2)⌉
  (r.2.1, r.1, r.1 + gap)

end Machine
end
end Verif
