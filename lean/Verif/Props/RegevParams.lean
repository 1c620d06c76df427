/-
Property C35, the parameters: what `KeyParams::setParams` computes (in real arithmetic) satisfies
the condition under which decryption cannot fail.
-/
import Verif.Props.RegevEnc
import Mathlib.Analysis.SpecialFunctions.Log.Base
import Mathlib.Analysis.SpecialFunctions.Pow.Real

namespace Verif.Props
open Verif Verif.Spec Verif.Regev

/-- `kk` for a given sigma in the search loop. -/
noncomputable def kOf (sigma : ℤ) : ℤ := (⌈(37.5 : ℝ) * ((252 + 2 - sigma : ℤ) : ℝ)⌉ + (2 : ℕ) - 1) / (2 : ℕ)

theorem kOf_bounds (sigma : ℤ) (h1 : 1 ≤ sigma) (h2 : sigma ≤ 115) :
    4096 < 2 * kOf sigma ∧ 2 * kOf sigma ≤ 9490 := by
  have a : (5212 : ℤ) ≤ ⌈(37.5 : ℝ) * ((252 + 2 - sigma : ℤ) : ℝ)⌉ := by
    rw [Int.le_ceil_iff]
    have : (139 : ℝ) ≤ ((252 + 2 - sigma : ℤ) : ℝ) := by exact_mod_cast (by omega : (139 : ℤ) ≤ 252 + 2 - sigma)
    push_cast at this ⊢
    linarith
  have b : ⌈(37.5 : ℝ) * ((252 + 2 - sigma : ℤ) : ℝ)⌉ ≤ 9488 := by
    rw [Int.ceil_le]
    have : ((252 + 2 - sigma : ℤ) : ℝ) ≤ 253 := by exact_mod_cast (by omega : 252 + 2 - sigma ≤ (253 : ℤ))
    push_cast at this ⊢
    linarith
  unfold kOf
  omega

theorem logSqrt_eq (kk : ℤ) (h1 : 4096 < kk) (h2 : kk ≤ 16384) : ⌈Real.logb 2 (kk : ℝ) / 2⌉ = 7 := by
  have p : (0 : ℝ) < kk := by exact_mod_cast (by omega : 0 < kk)
  have a : (12 : ℝ) < Real.logb 2 kk := by
    rw [Real.lt_logb_iff_rpow_lt (by norm_num) p]
    have : ((4096 : ℤ) : ℝ) < kk := by exact_mod_cast h1
    norm_num at this ⊢
    exact this
  have b : Real.logb 2 kk ≤ 14 := by
    rw [Real.logb_le_iff_le_rpow (by norm_num) p]
    have : (kk : ℝ) ≤ ((16384 : ℤ) : ℝ) := by exact_mod_cast h2
    norm_num at this ⊢
    exact this
  rw [Int.ceil_eq_iff]
  constructor
  · push_cast; linarith
  · push_cast; linarith

theorem paramLoop_eq (L : ℤ) (hL : 1 ≤ 109 - L) (s : ℕ) (h1 : 109 - L ≤ s) (h2 : s ≤ 115) :
    paramLoop 2 126 L s = (109 - L, kOf (109 - L), 2 * kOf (109 - L)) := by
  induction s with
  | zero => omega
  | succ s ih =>
    unfold paramLoop
    simp only
    have hb := kOf_bounds ((s : ℤ) + 1) (by omega) (by omega)
    have hk : (⌈(37.5 : ℝ) * ((252 + 2 - ((s : ℤ) + 1) : ℤ) : ℝ)⌉ + ((2 : ℕ) : ℤ) - 1) / ((2 : ℕ) : ℤ) =
        kOf ((s : ℤ) + 1) := rfl
    rw [hk]
    have hl := logSqrt_eq (((2 : ℕ) : ℤ) * kOf ((s : ℤ) + 1)) (by push_cast; omega) (by push_cast; omega)
    rw [hl]
    by_cases hc : (126 : ℤ) ≥ (s : ℤ) + 1 + L + 10 + 7
    · rw [if_pos hc]
      have : (s : ℤ) + 1 = 109 - L := by push_cast at h1; omega
      rw [this]; norm_num
    · rw [if_neg hc]
      exact ih (by push_cast at h1; omega) (by omega)

/-- What `setParams` computes: `L` is at least `log2(2n)`, `K` follows from `L`, and `2^G` is `√X` rounded up to a
power of two. -/
theorem setParams_facts (n : ℕ) (h2 : 2 ≤ n) (hn : n < 2 ^ 30) :
    ∃ L K G X : ℤ, setParams 2 n = (K, 109 - L, 109 - L + G) ∧
      L = ⌈Real.logb 2 ((n * 2 : ℕ) : ℝ) + Real.log (((n * 2 - 1) / 2 : ℕ) : ℝ) / 2⌉ ∧ K = kOf (109 - L) ∧
      2 ≤ L ∧ L ≤ 65 ∧ 4096 < 2 * K ∧ 2 * K ≤ 9490 ∧ X = 124080 * (2 * K) * ((n * 2 - 1) / 2 : ℕ) ∧ 0 ≤ G ∧
      X ≤ ((2 : ℤ) ^ G.toNat) ^ 2 ∧ ((2 : ℤ) ^ G.toNat) ^ 2 ≤ 4 * X ∧ ((n * 2 : ℕ) : ℤ) ≤ 2 ^ L.toNat := by
  obtain ⟨nn, hnn⟩ : ∃ nn, nn = n * 2 := ⟨_, rfl⟩
  obtain ⟨tt, htt⟩ : ∃ tt, tt = (nn - 1) / 2 := ⟨_, rfl⟩
  obtain ⟨L, hL⟩ : ∃ L : ℤ, L = ⌈Real.logb 2 (nn : ℝ) + Real.log (tt : ℝ) / 2⌉ := ⟨_, rfl⟩
  have htt1 : 1 ≤ tt := by omega
  have rtt : (1 : ℝ) ≤ tt := by exact_mod_cast htt1
  have rnn : (4 : ℝ) ≤ nn := by exact_mod_cast (by omega : 4 ≤ nn)
  have hlogtt : 0 ≤ Real.log (tt : ℝ) := Real.log_nonneg rtt
  have hLlo : Real.logb 2 (nn : ℝ) ≤ L := by
    rw [hL]
    refine le_trans ?_ (Int.le_ceil _)
    linarith
  have hL2 : (2 : ℤ) ≤ L := by
    have : (2 : ℝ) ≤ Real.logb 2 (nn : ℝ) := by
      rw [Real.le_logb_iff_rpow_le (by norm_num) (by linarith)]
      norm_num; omega
    exact_mod_cast this.trans hLlo
  have hLhi : L ≤ 65 := by
    rw [hL, Int.ceil_le]
    have a : Real.logb 2 (nn : ℝ) ≤ 32 := by
      rw [Real.logb_le_iff_le_rpow (by norm_num) (by linarith)]
      have : nn ≤ 4294967296 := by omega
      have : (nn : ℝ) ≤ 4294967296 := by exact_mod_cast this
      norm_num; omega
    have b : Real.log (tt : ℝ) ≤ 64 := by
      have e : Real.log (tt : ℝ) ≤ Real.logb 2 tt := by
        rw [Real.logb, le_div_iff₀ (Real.log_pos (by norm_num))]
        have : Real.log 2 ≤ 1 := by
          have := Real.log_le_sub_one_of_pos (show (0 : ℝ) < 2 by norm_num)
          linarith
        nlinarith
      have : Real.logb 2 (tt : ℝ) ≤ 32 := by
        rw [Real.logb_le_iff_le_rpow (by norm_num) (by linarith)]
        have : tt ≤ 4294967296 := by omega
        have : (tt : ℝ) ≤ 4294967296 := by exact_mod_cast this
        norm_num; omega
      linarith
    push_cast; linarith
  obtain ⟨K, hK⟩ : ∃ K, K = kOf (109 - L) := ⟨_, rfl⟩
  have hKb := kOf_bounds (109 - L) (by omega) (by omega)
  rw [← hK] at hKb
  obtain ⟨X, hX⟩ : ∃ X : ℤ, X = 124080 * (2 * K) * tt := ⟨_, rfl⟩
  obtain ⟨G, hG⟩ : ∃ G : ℤ, G = ⌈Real.logb 2 (X : ℝ) / 2⌉ := ⟨_, rfl⟩
  have hp : setParams 2 n = (K, 109 - L, 109 - L + G) := by
    unfold setParams
    simp only [← hnn, ← htt, ← hL]
    have hstart : (((252 * (2 - 1) : ℕ) : ℤ) / ((2 : ℕ) : ℤ)) = 126 := by norm_num
    rw [hstart, paramLoop_eq L (by omega) _ (by omega) (by omega)]
    simp only [← hK, ← hX, ← hG]
  have hX1 : 1 ≤ X := by
    rw [hX]
    have : (1 : ℤ) ≤ tt := by exact_mod_cast htt1
    nlinarith
  have rX : (1 : ℝ) ≤ X := by exact_mod_cast hX1
  have hG0 : 0 ≤ G := by
    rw [hG]
    apply Int.ceil_nonneg
    have := Real.logb_nonneg (by norm_num : (1 : ℝ) < 2) rX
    linarith
  -- 2^G ≤ 2·√X
  have hGX : ((2 : ℤ) ^ G.toNat) ^ 2 ≤ 4 * X := by
    have h : (2 * G : ℝ) < Real.logb 2 (X : ℝ) + 2 := by
      have := Int.ceil_lt_add_one (Real.logb 2 (X : ℝ) / 2)
      rw [← hG] at this
      linarith
    have h3 : (2 : ℝ) ^ (2 * G : ℝ) ≤ 4 * X := by
      calc (2 : ℝ) ^ (2 * G : ℝ) ≤ (2 : ℝ) ^ (Real.logb 2 (X : ℝ) + 2) :=
            Real.rpow_le_rpow_of_exponent_le (by norm_num) h.le
        _ = 4 * X := by
            rw [Real.rpow_add (by norm_num), Real.rpow_logb (by norm_num) (by norm_num) (by linarith)]
            norm_num; ring
    have h4 : (2 : ℝ) ^ (2 * G : ℝ) = (((2 : ℤ) ^ G.toNat) ^ 2 : ℤ) := by
      push_cast
      rw [← pow_mul, ← Real.rpow_natCast]
      congr 1
      push_cast
      have : ((G.toNat : ℕ) : ℝ) = (G : ℝ) := by
        exact_mod_cast (by omega : ((G.toNat : ℕ) : ℤ) = G)
      rw [this]; ring
    rw [h4] at h3
    exact_mod_cast h3
  -- nn ≤ 2^L
  have hnnL : (nn : ℤ) ≤ 2 ^ L.toNat := by
    rw [Real.logb_le_iff_le_rpow (by norm_num) (by linarith)] at hLlo
    have : (2 : ℝ) ^ (L : ℝ) = ((2 ^ L.toNat : ℤ) : ℝ) := by
      push_cast
      rw [← Real.rpow_natCast]
      congr 1
      exact_mod_cast (by omega : L = ((L.toNat : ℕ) : ℤ))
    rw [this] at hLlo
    exact_mod_cast hLlo
  have hXG : X ≤ ((2 : ℤ) ^ G.toNat) ^ 2 := by
    have h : Real.logb 2 (X : ℝ) ≤ (2 * G : ℝ) := by
      have := Int.le_ceil (Real.logb 2 (X : ℝ) / 2)
      rw [← hG] at this
      linarith
    rw [Real.logb_le_iff_le_rpow (by norm_num) (by linarith)] at h
    have h4 : (2 : ℝ) ^ (2 * G : ℝ) = (((2 : ℤ) ^ G.toNat) ^ 2 : ℤ) := by
      push_cast
      rw [← pow_mul, ← Real.rpow_natCast]
      congr 1
      push_cast
      have : ((G.toNat : ℕ) : ℝ) = (G : ℝ) := by
        exact_mod_cast (by omega : ((G.toNat : ℕ) : ℤ) = G)
      rw [this]; ring
    rw [h4] at h
    exact_mod_cast h
  subst hnn htt
  exact ⟨L, K, G, X, hp, hL, hK, hL2, hLhi, hKb.1, hKb.2, hX, hG0, hXG, hGX, hnnL⟩

/-- **C35, the parameters.** For every number of parties from 2 up to `2^30` (beyond that `n·ell` overflows an `int`), the parameters
computed by `setParams` satisfy the hypothesis of `C35_no_failure`. -/
theorem C35_setParams (n : ℕ) (h2 : 2 ≤ n) (hn : n < 2 ^ 30) :
    let p := setParams 2 n
    0 < p.1 ∧ 1 < p.2.1 ∧ 2 < p.2.2 ∧
      3 * (p.1 * 2) * 2 ^ p.2.1.toNat + 2 ^ p.2.2.toNat ≤ (2 : ℤ) ^ 125 := by
  intro p
  obtain ⟨L, K, G, X, hp, -, -, hL2, hLhi, hKlo, hKhi, hX, hG0, -, hGX, hnnL⟩ := setParams_facts n h2 hn
  obtain ⟨nn, hnn⟩ : ∃ nn, nn = n * 2 := ⟨_, rfl⟩
  obtain ⟨tt, htt⟩ : ∃ tt, tt = (nn - 1) / 2 := ⟨_, rfl⟩
  rw [← hnn, ← htt] at hX
  rw [← hnn] at hnnL
  have hKb := And.intro hKlo hKhi
  rw [show p = _ from hp]
  simp only
  obtain ⟨Q, hQ⟩ : ∃ Q : ℤ, Q = 2 ^ G.toNat := ⟨_, rfl⟩
  rw [← hQ] at hGX
  have hnn4 : (4 : ℤ) ≤ nn := by exact_mod_cast (by omega : 4 ≤ nn)
  have htt2 : 2 * (tt : ℤ) ≤ nn := by exact_mod_cast (by omega : 2 * tt ≤ nn)
  have hQ0 : 0 < Q := by rw [hQ]; positivity
  have hXb : X ≤ 124080 * 9490 * tt := by
    rw [hX]
    have : (0 : ℤ) ≤ tt := by positivity
    nlinarith
  have hmain : 3 * (K * 2) + Q ≤ 2 ^ 16 * nn := by
    by_contra hcon
    push Not at hcon
    have h5 : 51301 * (nn : ℤ) < Q := by
      have : 3 * (K * 2) ≤ 28470 := by linarith
      norm_num at hcon
      nlinarith
    nlinarith
  refine ⟨by omega, by omega, ?_, ?_⟩
  · omega
  · have e1 : (109 - L + G).toNat = (109 - L).toNat + G.toNat := by omega
    rw [e1, pow_add, ← hQ]
    have e2 : (2 : ℤ) ^ 125 = 2 ^ (109 - L).toNat * (2 ^ 16 * 2 ^ L.toNat) := by
      rw [← pow_add, ← pow_add]; congr 1; omega
    rw [e2]
    calc 3 * (K * 2) * 2 ^ (109 - L).toNat + 2 ^ (109 - L).toNat * Q
        = 2 ^ (109 - L).toNat * (3 * (K * 2) + Q) := by ring
      _ ≤ 2 ^ (109 - L).toNat * (2 ^ 16 * 2 ^ L.toNat) := by
          refine mul_le_mul_of_nonneg_left ?_ (by positivity)
          linarith

/-- The theorem applies to 100 parties, and so does `C35_no_failure` with the parameters it gives. -/
example : 0 < (setParams 2 100).1 := (C35_setParams 100 (by norm_num) (by norm_num)).1

end Verif.Props
