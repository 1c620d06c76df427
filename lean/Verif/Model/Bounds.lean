/-
Model of the first half of the constructor of `VerifierData`, /repo/src/regev/regevProofs-utils.cpp:111-166:
the norm bounds, the radix of the digits and the size of the masks, computed from the dimensions and the
sizes of the noises.

The code computes with doubles and with NTL's `RR` (150 bits).  Here this is real arithmetic; what rounding
can change is dealt with in Spec/Bounds.lean, where the theorems allow for an error of a thousandth.
-/
import Verif.Model.RegevProofs
import Mathlib.Analysis.SpecialFunctions.Log.Base
import Mathlib.Analysis.SpecialFunctions.Pow.Real

namespace Verif
open Regev

noncomputable section
variable {q : ℕ} [Fact q.Prime]

/-- `multDbl`, include/algebra.hpp:198-205 (`to_ZZ(RR)` rounds down). -/
def multDbl (x : ℝ) (y : ℤ) : ℤ := ⌊x * y⌋

/-- `log2BI`, include/algebra.hpp:206-208. -/
def log2BI (x : ℤ) : ℝ := Real.log x / 0.69314718056

/-- `BigInt(1) << b`: a negative `b` shifts to the right. -/
def oneShl (b : ℤ) : ℤ := if b < 0 then 0 else 2 ^ b.toNat

/-- regevProofs-utils.cpp:118-166.  `delta` and `H` are only passed on.  A negative `smlnsBits` is 0 here (it is
shown not to occur). -/
def verifierBounds (delta : ℕ) (gk : GlobalKey q 2) (H : List (List (ZMod q))) : Res (Params q) :=
  -- lines 119-120
  let kk : ℕ := gk.kay * 2
  let nn : ℕ := gk.enn * 2
  -- lines 124-125
  let sig_kg : ℤ := 2 ^ gk.sigmaEnc1
  let sig_e2 : ℤ := 2 ^ gk.sigmaEnc2
  -- line 130
  let B_sk : ℤ := ⌈2 * √(337 * (kk : ℝ))⌉
  -- line 135
  let B_kNoise := multDbl (√((kk : ℝ) * 337 / 2)) sig_kg
  -- line 138
  let B_eNoise2 := multDbl (√((nn : ℝ) * 337 / 2)) sig_e2
  -- line 145
  let B_dNoise := multDbl (√337 * 1.7) (sig_e2 * nn) + multDbl (√((kk : ℝ) * nn * 377)) (24 * sig_kg)
  -- lines 148-150
  if B_sk ≥ B_kNoise ∨ B_kNoise ≥ B_eNoise2 ∨ B_eNoise2 ≥ B_dNoise then .throw
  else
    -- lines 154-155
    let radixBits : ℤ := ⌈log2BI B_kNoise / 2⌉ - 3
    -- lines 161-162
    let smlnsBits : ℤ := ⌈Real.logb 2 (9.75 * 129 * √2600) + log2BI B_dNoise - radixBits⌉
    .ok { gk, delta, H, B_dNoise, B_sk, B_r := B_sk, B_eNoise1 := B_kNoise, B_eNoise2, B_kNoise
          -- line 165
          B_smallness := multDbl (128 / 129) (oneShl smlnsBits)
          smlnsBits := smlnsBits.toNat
          radix := oneShl radixBits }

end
end Verif
