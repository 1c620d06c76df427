/-
Lemmas about the norm bounds: real arithmetic with the numbers that `setParams` gives.
-/
import Verif.Spec.Bounds
import Verif.Spec.RegevSetup

namespace Verif
open Spec Regev

theorem Spec.Close.lo {b : ℤ} {x : ℝ} (h : Close b x) : 0.999 * x - 1 ≤ b := by
  unfold Close at h
  rw [abs_le] at h
  linarith [h.1]

theorem Spec.Close.hi {b : ℤ} {x : ℝ} (h : Close b x) : (b : ℝ) ≤ 1.001 * x + 1 := by
  unfold Close at h
  rw [abs_le] at h
  linarith [h.2]

/-- The sizes that `setParams` guarantees: `kk = 2k`, `nn = 2n`, `S = 2^σ₁`, `S·Q = 2^σ₂`. -/
structure Sizes (kk nn S Q : ℝ) : Prop where
  kk_lo : 4096 ≤ kk
  kk_hi : kk ≤ 9490
  nn_lo : 10 ≤ nn
  nn_hi : nn ≤ 2 ^ 31
  S_lo : 2 ^ 44 ≤ S
  S_hi : S ≤ 2 ^ 107
  nS : nn * S ≤ 2 ^ 109
  Q0 : 0 < Q
  Q_lo : 124080 * kk * 4 ≤ Q ^ 2
  Q_hi : Q ^ 2 ≤ 2 * 124080 * 9490 * nn

variable {kk nn S Q : ℝ}

theorem Sizes.u (h : Sizes kk nn S Q) : 830 ≤ √(337 * kk / 2) ∧ √(337 * kk / 2) ≤ 1265 := by
  constructor
  · apply Real.le_sqrt_of_sq_le; linarith [h.kk_lo]
  · rw [Real.sqrt_le_left (by norm_num)]; linarith [h.kk_hi]

theorem Sizes.s (h : Sizes kk nn S Q) : 0 ≤ √(337 * kk) ∧ √(337 * kk) ≤ 1789 := by
  constructor
  · positivity
  · rw [Real.sqrt_le_left (by norm_num)]; linarith [h.kk_hi]

theorem Sizes.v (h : Sizes kk nn S Q) : 0 ≤ √(337 * nn / 2) ∧ √(337 * nn / 2) ≤ 13 * nn := by
  have := h.nn_lo
  constructor
  · positivity
  · rw [Real.sqrt_le_left (by linarith)]; nlinarith

theorem Sizes.w (h : Sizes kk nn S Q) : 0 ≤ √(377 * kk * nn) ∧ √(377 * kk * nn) ≤ 1892 * nn := by
  have := h.nn_lo
  have := h.kk_hi
  constructor
  · positivity
  · rw [Real.sqrt_le_left (by linarith)]; nlinarith

theorem Sizes.Q_lo' (h : Sizes kk nn S Q) : 45000 ≤ Q := by
  have := h.Q0
  have := h.Q_lo
  have := h.kk_lo
  by_contra hc
  nlinarith

theorem Sizes.Q_hi' (h : Sizes kk nn S Q) : Q ≤ 2 ^ 33 := by
  have := h.Q0
  have := h.Q_hi
  have := h.nn_hi
  by_contra hc
  nlinarith

theorem Sizes.vQ (h : Sizes kk nn S Q) : 2000 * √(337 * kk / 2) ≤ √(337 * nn / 2) * Q := by
  have h1 := h.Q0
  have h2 := h.Q_lo
  have h3 := h.kk_lo
  have h4 := h.nn_lo
  have h5 := h.v.1
  have e1 : √(337 * kk / 2) ^ 2 = 337 * kk / 2 := Real.sq_sqrt (by linarith)
  have e2 : √(337 * nn / 2) ^ 2 = 337 * nn / 2 := Real.sq_sqrt (by linarith)
  apply le_of_sq_le_sq _ (by positivity)
  rw [mul_pow, mul_pow, e1, e2]
  nlinarith

theorem r337 : 18.35 ≤ √(337 : ℝ) ∧ √(337 : ℝ) ≤ 18.36 := by
  constructor
  · apply Real.le_sqrt_of_sq_le; norm_num
  · rw [Real.sqrt_le_left (by norm_num)]; norm_num

theorem c2600 : 64100 ≤ 9.75 * 129 * √(2600 : ℝ) ∧ 9.75 * 129 * √(2600 : ℝ) ≤ 64140 := by
  have h1 : 50.98 ≤ √(2600 : ℝ) := by apply Real.le_sqrt_of_sq_le; norm_num
  have h2 : √(2600 : ℝ) ≤ 50.9905 := by rw [Real.sqrt_le_left (by norm_num)]; norm_num
  constructor <;> linarith

theorem le_of_logb {x y : ℝ} (hx : 0 < x) (h : Real.logb 2 x ≤ y) : x ≤ 2 ^ y := by
  rwa [Real.logb_le_iff_le_rpow (by norm_num) hx] at h

theorem ge_of_logb {x y : ℝ} (hx : 0 < x) (h : y ≤ Real.logb 2 x) : (2 : ℝ) ^ y ≤ x := by
  rwa [Real.le_logb_iff_rpow_le (by norm_num) hx] at h

theorem two_rpow_small {y c : ℝ} (n : ℕ) (hc : 0 ≤ c) (hn : 0 < n) (hy : y * n ≤ 1) (h : 2 ≤ c ^ n) :
    (2 : ℝ) ^ y ≤ c := by
  have h1 : ((2 : ℝ) ^ y) ^ n ≤ c ^ n := by
    rw [← Real.rpow_natCast, ← Real.rpow_mul (by norm_num)]
    refine le_trans (Real.rpow_le_rpow_of_exponent_le (by norm_num) hy) ?_
    rw [Real.rpow_one]
    exact h
  exact le_of_pow_le_pow_left₀ (by omega) hc h1

theorem rpow_nat_of_int {b : ℤ} (hb : 0 ≤ b) : (2 : ℝ) ^ (b : ℝ) = 2 ^ b.toNat := by
  obtain ⟨n, rfl⟩ := Int.eq_ofNat_of_zero_le hb
  simp

/-- The square of the radix is between a 65th of the noise bound and the noise bound. -/
theorem radix_sq {B b : ℤ} (hB : (2 : ℝ) ^ 53 ≤ B) (h : CloseCeil b (Real.logb 2 B / 2 - 3)) :
    0 ≤ b ∧ ((2 : ℝ) ^ b.toNat) ^ 2 ≤ B ∧ (B : ℝ) ≤ 65 * ((2 : ℝ) ^ b.toNat) ^ 2 := by
  have hB0 : (0 : ℝ) < B := lt_of_lt_of_le (by positivity) hB
  have h53 : (53 : ℝ) ≤ Real.logb 2 B := by
    rw [Real.le_logb_iff_rpow_le (by norm_num) hB0]
    exact_mod_cast hB
  obtain ⟨h1, h2⟩ := h
  have hb : 0 ≤ b := by
    have : (0 : ℝ) ≤ b := by linarith
    exact_mod_cast this
  have hsq : ((2 : ℝ) ^ b.toNat) ^ 2 = 2 ^ ((b : ℝ) * 2) := by
    rw [← rpow_nat_of_int hb, ← Real.rpow_natCast, ← Real.rpow_mul (by norm_num)]
    norm_num
  refine ⟨hb, ?_, ?_⟩
  · rw [hsq]
    exact ge_of_logb hB0 (by linarith)
  · rw [hsq]
    refine (le_of_logb (y := 6 + (0.02 + (b : ℝ) * 2)) hB0 (by linarith)).trans ?_
    rw [Real.rpow_add (by norm_num), Real.rpow_add (by norm_num)]
    have e1 : (2 : ℝ) ^ (6 : ℝ) = 64 := by norm_num
    have e2 : (2 : ℝ) ^ (0.02 : ℝ) ≤ 65 / 64 :=
      two_rpow_small 50 (by norm_num) (by norm_num) (by norm_num) (by norm_num)
    rw [e1]
    have : (0 : ℝ) < 2 ^ ((b : ℝ) * 2) := by positivity
    nlinarith

/-- The range of the masks, compared with the decryption noise divided by the radix. -/
theorem mask_range {B b m : ℤ} (hb : 0 ≤ b) (hB : (2 : ℝ) ^ b.toNat ≤ B)
    (h : CloseCeil m (Real.logb 2 (9.75 * 129 * √2600) + Real.logb 2 B - b)) :
    0 ≤ m ∧ 60000 * (B : ℝ) ≤ 2 ^ m.toNat * 2 ^ b.toNat ∧ (2 : ℝ) ^ m.toNat * 2 ^ b.toNat ≤ 130000 * B := by
  have hB0 : (0 : ℝ) < B := lt_of_lt_of_le (by positivity) hB
  obtain ⟨c1, c2⟩ := c2600
  have hc0 : (0 : ℝ) < 9.75 * 129 * √2600 := by linarith
  have hlog : Real.logb 2 (9.75 * 129 * √2600) + Real.logb 2 B = Real.logb 2 (9.75 * 129 * √2600 * B) :=
    (Real.logb_mul hc0.ne' hB0.ne').symm
  rw [hlog] at h
  generalize 9.75 * 129 * √2600 = c at *
  obtain ⟨h1, h2⟩ := h
  have hcB : 0 < c * B := by positivity
  -- a lower bound of the power
  have hlow : 60000 * (B : ℝ) ≤ 2 ^ ((m : ℝ) + b) := by
    have h3 : c * B ≤ 2 ^ ((0.01 : ℝ) + (m + b)) := le_of_logb hcB (by linarith)
    rw [Real.rpow_add (by norm_num)] at h3
    have e2 : (2 : ℝ) ^ (0.01 : ℝ) ≤ 1.01 :=
      two_rpow_small 100 (by norm_num) (by norm_num) (by norm_num) (by norm_num)
    have : (0 : ℝ) < 2 ^ ((m : ℝ) + b) := by positivity
    nlinarith
  have hup : (2 : ℝ) ^ ((m : ℝ) + b) ≤ 130000 * B := by
    have h3 : (2 : ℝ) ^ ((m : ℝ) + b - 1.01) ≤ c * B := ge_of_logb hcB (by linarith)
    rw [show (m : ℝ) + b = (m + b - 1.01) + (1 + 0.01) by ring, Real.rpow_add (by norm_num),
      Real.rpow_add (by norm_num), Real.rpow_one]
    have e2 : (2 : ℝ) ^ (0.01 : ℝ) ≤ 1.01 :=
      two_rpow_small 100 (by norm_num) (by norm_num) (by norm_num) (by norm_num)
    have h4 : (2 : ℝ) ^ ((m : ℝ) + b - 1.01) ≤ 64140 * B := by nlinarith
    have : (0 : ℝ) < 2 ^ ((m : ℝ) + b - 1.01) := by positivity
    nlinarith
  have hm : 0 ≤ m := by
    by_contra hc
    have : (m : ℝ) ≤ -1 := by exact_mod_cast (by omega : m ≤ -1)
    have h5 : (2 : ℝ) ^ ((m : ℝ) + b) ≤ 2 ^ (b : ℝ) :=
      Real.rpow_le_rpow_of_exponent_le (by norm_num) (by linarith)
    rw [rpow_nat_of_int hb] at h5
    linarith
  rw [Real.rpow_add (by norm_num), rpow_nat_of_int hb, rpow_nat_of_int hm] at hlow hup
  exact ⟨hm, hlow, hup⟩

section
variable {q : ℕ} [Fact q.Prime] {P : Params q} {b m : ℤ}

/-- What follows from the bounds being close to the real numbers. -/
structure BoundsFacts (P : Params q) (b m : ℤ) (nn S Q : ℝ) : Prop where
  sk : 2000 ≤ P.B_sk ∧ P.B_sk ≤ 3600
  k_lo : 829 * S ≤ P.B_kNoise
  k_hi : (P.B_kNoise : ℝ) ≤ 1267 * S
  sk_k : P.B_sk < P.B_kNoise
  k_e : P.B_kNoise < P.B_eNoise2
  e_d : P.B_eNoise2 < P.B_dNoise
  d_hi : (P.B_dNoise : ℝ) ≤ 34 * nn * S * Q
  b0 : 0 ≤ b
  radix_lo : (P.radix : ℝ) ^ 2 ≤ P.B_kNoise
  radix_hi : (P.B_kNoise : ℝ) ≤ 65 * (P.radix : ℝ) ^ 2
  m0 : 0 ≤ m
  mask_lo : 60000 * (P.B_dNoise : ℝ) ≤ 2 ^ m.toNat * P.radix
  mask_hi : (2 : ℝ) ^ m.toNat * P.radix ≤ 130000 * P.B_dNoise

/-- The part about the four bounds. -/
theorem bounds_facts0
    (hsk : Close P.B_sk (2 * √(337 * (P.gk.kay * 2))))
    (hk : Close P.B_kNoise (√(337 * (P.gk.kay * 2) / 2) * 2 ^ P.gk.sigmaEnc1))
    (he : Close P.B_eNoise2 (√(337 * (P.gk.enn * 2) / 2) * 2 ^ P.gk.sigmaEnc2))
    (hd : Close P.B_dNoise (1.7 * √337 * (P.gk.enn * 2) * 2 ^ P.gk.sigmaEnc2 +
      24 * √(377 * (P.gk.kay * 2) * (P.gk.enn * 2)) * 2 ^ P.gk.sigmaEnc1))
    (hs : Sizes (P.gk.kay * 2) (P.gk.enn * 2) (2 ^ P.gk.sigmaEnc1) Q)
    (hQ : (2 : ℝ) ^ P.gk.sigmaEnc2 = 2 ^ P.gk.sigmaEnc1 * Q) :
    2000 ≤ P.B_sk ∧ P.B_sk ≤ 3600 ∧ 829 * 2 ^ P.gk.sigmaEnc1 ≤ (P.B_kNoise : ℝ) ∧
      (P.B_kNoise : ℝ) ≤ 1267 * 2 ^ P.gk.sigmaEnc1 ∧ P.B_sk < P.B_kNoise ∧ P.B_kNoise < P.B_eNoise2 ∧
      P.B_eNoise2 < P.B_dNoise ∧ (P.B_dNoise : ℝ) ≤ 34 * (P.gk.enn * 2) * 2 ^ P.gk.sigmaEnc1 * Q := by
  rw [hQ] at he hd
  have hu := hs.u
  have hs' := hs.s
  have hs2 : 1170 ≤ √(337 * ((P.gk.kay : ℝ) * 2)) := by
    apply Real.le_sqrt_of_sq_le; linarith [hs.kk_lo]
  have hv := hs.v
  have hw := hs.w
  have hvQ := hs.vQ
  have hr := r337
  have hQlo := hs.Q_lo'
  have hnn := hs.nn_lo
  have hS := hs.S_lo
  generalize √(337 * ((P.gk.kay : ℝ) * 2) / 2) = u at *
  generalize √(337 * ((P.gk.kay : ℝ) * 2)) = s at *
  generalize √(337 * ((P.gk.enn : ℝ) * 2) / 2) = v at *
  generalize √(377 * ((P.gk.kay : ℝ) * 2) * ((P.gk.enn : ℝ) * 2)) = w at *
  generalize √(337 : ℝ) = r at *
  generalize (P.gk.enn : ℝ) * 2 = nn at *
  generalize (2 : ℝ) ^ P.gk.sigmaEnc1 = S at *
  have hS0 : (0 : ℝ) < S := lt_of_lt_of_le (by positivity) hS
  have hS2 : (17592186044416 : ℝ) ≤ S := by linarith
  have k_lo : 829 * S ≤ P.B_kNoise := by
    have := hk.lo
    nlinarith
  have k_hi : (P.B_kNoise : ℝ) ≤ 1267 * S := by
    have := hk.hi
    nlinarith
  have sk_hi : P.B_sk ≤ 3600 := by
    have h1 := hsk.hi
    have : (P.B_sk : ℝ) ≤ 3600 := by linarith
    exact_mod_cast this
  have sk_lo : 2000 ≤ P.B_sk := by
    have h1 := hsk.lo
    have : (2000 : ℝ) ≤ P.B_sk := by linarith
    exact_mod_cast this
  have sk_k : P.B_sk < P.B_kNoise := by
    have : (3600 : ℝ) < P.B_kNoise := by nlinarith
    have : (3600 : ℤ) < P.B_kNoise := by exact_mod_cast this
    omega
  have k_e : P.B_kNoise < P.B_eNoise2 := by
    have h1 := hk.hi
    have h2 := he.lo
    have h3 : v * (S * Q) ≥ 2000 * u * S := by nlinarith
    have h4 : u * S ≥ 830 * S := by nlinarith
    have : (P.B_kNoise : ℝ) < P.B_eNoise2 := by linarith
    exact_mod_cast this
  have hSQ : 45000 * S ≤ S * Q := by nlinarith
  have hnSQ : 10 * (S * Q) ≤ nn * (S * Q) := by nlinarith
  have e_d : P.B_eNoise2 < P.B_dNoise := by
    have h1 := he.hi
    have h2 := hd.lo
    have h3 : v * (S * Q) ≤ 13 * (nn * (S * Q)) := by nlinarith
    have h4 : 1.7 * r * nn * (S * Q) ≥ 31 * (nn * (S * Q)) := by
      have : 0 ≤ nn * (S * Q) := by linarith
      nlinarith
    have h5 : 0 ≤ 24 * w * S := by have := hw.1; positivity
    have : (P.B_eNoise2 : ℝ) < P.B_dNoise := by linarith
    exact_mod_cast this
  have d_hi : (P.B_dNoise : ℝ) ≤ 34 * nn * S * Q := by
    have h2 := hd.hi
    have h4 : 1.7 * r * nn * (S * Q) ≤ 31.3 * (nn * (S * Q)) := by
      have : 0 ≤ nn * (S * Q) := by linarith
      nlinarith
    have h5 : 24 * w * S ≤ 1.01 * (nn * (S * Q)) := by
      have h6 : w * S ≤ 1892 * nn * S := by nlinarith
      have h7 : nn * (45000 * S) ≤ nn * (S * Q) := by nlinarith
      nlinarith
    nlinarith
  exact ⟨sk_lo, sk_hi, k_lo, k_hi, sk_k, k_e, e_d, d_hi⟩

theorem bounds_facts (h : BoundsClose P b m)
    (hs : Sizes (P.gk.kay * 2) (P.gk.enn * 2) (2 ^ P.gk.sigmaEnc1) Q)
    (hQ : (2 : ℝ) ^ P.gk.sigmaEnc2 = 2 ^ P.gk.sigmaEnc1 * Q) :
    BoundsFacts P b m (P.gk.enn * 2) (2 ^ P.gk.sigmaEnc1) Q := by
  obtain ⟨sk_lo, sk_hi, k_lo, k_hi, sk_k, k_e, e_d, d_hi⟩ := bounds_facts0 h.sk h.kNoise h.eNoise2 h.dNoise hs hQ
  have hrad := h.radix
  have hbits := h.bits
  have hmask := h.mask
  have hS := hs.S_lo
  have hB53 : (2 : ℝ) ^ 53 ≤ P.B_kNoise := by linarith
  obtain ⟨b0, r1, r2⟩ := radix_sq hB53 hbits
  have hradix : (P.radix : ℝ) = 2 ^ b.toNat := by
    rw [hrad b0]
    push_cast
    rfl
  have hrd : (2 : ℝ) ^ b.toNat ≤ P.B_dNoise := by
    have h1 : (1 : ℝ) ≤ 2 ^ b.toNat := one_le_pow₀ (by norm_num)
    have h2 : (P.B_kNoise : ℝ) ≤ P.B_dNoise := by exact_mod_cast (k_e.trans e_d).le
    nlinarith
  obtain ⟨m0, m1, m2⟩ := mask_range b0 hrd hmask
  rw [← hradix] at r1 r2 m1 m2
  exact ⟨⟨sk_lo, sk_hi⟩, k_lo, k_hi, sk_k, k_e, e_d, d_hi, b0, r1, r2, m0, m1, m2⟩

theorem ceilSqrt_le (n : ℕ) : ceilSqrt n ≤ n + 1 := by
  unfold ceilSqrt
  have := Nat.sqrt_le_self n
  split <;> omega

/-- The bound on a high digit. -/
theorem hiBound_range {B : ℤ} {dim : ℕ} (hB0 : 0 ≤ B) (hr : 2 ^ 23 ≤ P.radix) (hB : B ≤ 2 ^ 148) (hd : dim ≤ 2 ^ 31) :
    0 ≤ hiBound P B dim ∧ hiBound P B dim ≤ 2 ^ 126 - 1 := by
  unfold hiBound
  have h1 := ceilSqrt_le dim
  rw [Int.fdiv_eq_ediv_of_nonneg _ (by omega)]
  have h3 : 0 ≤ B / P.radix := Int.ediv_nonneg hB0 (by omega)
  have h2 : B / P.radix * 2 ^ 23 ≤ B :=
    (mul_le_mul_of_nonneg_left hr h3).trans (Int.ediv_mul_le B (by omega))
  omega

end

end Verif
