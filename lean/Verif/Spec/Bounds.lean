/-
Specification of the norm bounds: the real numbers that the code approximates, and how far off it may be.
-/
import Verif.Model.RegevProofs
import Mathlib.Analysis.SpecialFunctions.Log.Base
import Mathlib.Analysis.SpecialFunctions.Pow.Real

namespace Verif.Spec
open Regev

variable {q : ℕ} [Fact q.Prime]

/-- An integer that is within a thousandth, plus one, of a real number. -/
def Close (b : ℤ) (x : ℝ) : Prop := |(b : ℝ) - x| ≤ x / 1000 + 1

/-- An integer obtained by rounding a real number up, with an error of a hundredth. -/
def CloseCeil (b : ℤ) (x : ℝ) : Prop := x - 0.01 ≤ b ∧ (b : ℝ) ≤ x + 1.01

/-- The norm bounds are close to the real numbers given by the dimensions `kk = 2k`, `nn = 2n` over the
scalars and the noise sizes: `2√(337kk)` for keys and randomness, `√(337kk/2)·2^σ₁` and
`√(337nn/2)·2^σ₂` for the noises, `1.7√337·nn·2^σ₂ + 24√(377·kk·nn)·2^σ₁` for decryption; the radix is
`2^b`, with `b` half of the number of bits of the noise minus 3; the mask has `m` bits. -/
structure BoundsClose (P : Params q) (b m : ℤ) : Prop where
  sk : Close P.B_sk (2 * √(337 * (P.gk.kay * 2)))
  r : P.B_r = P.B_sk
  kNoise : Close P.B_kNoise (√(337 * (P.gk.kay * 2) / 2) * 2 ^ P.gk.sigmaEnc1)
  eNoise1 : P.B_eNoise1 = P.B_kNoise
  eNoise2 : Close P.B_eNoise2 (√(337 * (P.gk.enn * 2) / 2) * 2 ^ P.gk.sigmaEnc2)
  dNoise : Close P.B_dNoise (1.7 * √337 * (P.gk.enn * 2) * 2 ^ P.gk.sigmaEnc2 +
    24 * √(377 * (P.gk.kay * 2) * (P.gk.enn * 2)) * 2 ^ P.gk.sigmaEnc1)
  bits : CloseCeil b (Real.logb 2 P.B_kNoise / 2 - 3)
  radix : 0 ≤ b → P.radix = 2 ^ b.toNat
  mask : CloseCeil m (Real.logb 2 (9.75 * 129 * √2600) + Real.logb 2 P.B_dNoise - b)
  maskBits : P.smlnsBits = m.toNat
  smallness : 0 ≤ m → Close P.B_smallness (128 / 129 * 2 ^ m.toNat)

end Verif.Spec
