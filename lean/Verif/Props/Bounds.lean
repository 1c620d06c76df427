/-
C67: the norm bounds computed by the constructor of `VerifierData`, for the dimensions and noise sizes that
`setParams` chooses.
-/
import Verif.Model.Bounds
import Verif.Lemmas.Bounds
import Verif.Props.RegevParams
import Verif.Props.Main
import Mathlib.Analysis.Complex.ExponentialBounds

namespace Verif.Props
open Spec Regev
open scoped BigOperators

/-- The global key has the dimensions and noise sizes that the program uses for `n` parties. -/
structure Standard {q : ℕ} (gk : GlobalKey q 2) (n : ℕ) : Prop where
  kay : (gk.kay : ℤ) = (setParams 2 n).1
  enn : gk.enn = n
  sigma1 : (gk.sigmaEnc1 : ℤ) = (setParams 2 n).2.1
  sigma2 : (gk.sigmaEnc2 : ℤ) = (setParams 2 n).2.2

theorem Standard.sizes {q : ℕ} {gk : GlobalKey q 2} {n : ℕ} (h : Standard gk n) (h5 : 5 ≤ n) (hn : n < 2 ^ 30) :
    ∃ Q : ℝ, Sizes (gk.kay * 2) (gk.enn * 2) (2 ^ gk.sigmaEnc1) Q ∧
      (2 : ℝ) ^ gk.sigmaEnc2 = 2 ^ gk.sigmaEnc1 * Q := by
  obtain ⟨L, K, G, X, hp, -, -, hL2, hLhi, hKlo, hKhi, hX, hG0, hXG, hGX, hnnL⟩ := setParams_facts n (by omega) hn
  obtain ⟨g1, g2, g3, g4⟩ := h
  rw [hp] at g1 g3 g4
  dsimp only at g1 g3 g4
  obtain ⟨gn, rfl⟩ := Int.eq_ofNat_of_zero_le hG0
  obtain ⟨ln, rfl⟩ := Int.eq_ofNat_of_zero_le (show 0 ≤ L by omega)
  simp only [Int.toNat_natCast] at hXG hGX hnnL
  have e1 : gk.sigmaEnc1 = 109 - ln := by omega
  have e2 : gk.sigmaEnc2 = gk.sigmaEnc1 + gn := by omega
  have rk : ((gk.kay : ℤ) : ℝ) = (K : ℝ) := by rw [g1]
  rw [Int.cast_natCast] at rk
  obtain ⟨tt, htt⟩ : ∃ tt, tt = (n * 2 - 1) / 2 := ⟨_, rfl⟩
  rw [← htt] at hX
  have rt : (4 : ℝ) ≤ tt := by exact_mod_cast (by omega : 4 ≤ tt)
  have rt2 : (tt : ℝ) * 2 ≤ (n : ℝ) * 2 := by exact_mod_cast (by omega : tt * 2 ≤ n * 2)
  have r1 : (4096 : ℝ) < 2 * K := by exact_mod_cast hKlo
  have r2 : 2 * (K : ℝ) ≤ 9490 := by exact_mod_cast hKhi
  have rX : (X : ℝ) = 124080 * (2 * K) * tt := by rw [hX]; push_cast; ring
  have r3 : (X : ℝ) ≤ ((2 : ℝ) ^ gn) ^ 2 := by exact_mod_cast hXG
  have r4 : ((2 : ℝ) ^ gn) ^ 2 ≤ 4 * X := by exact_mod_cast hGX
  have r5 : (n : ℝ) * 2 ≤ 2 ^ ln := by exact_mod_cast hnnL
  have rn5 : (5 : ℝ) ≤ n := by exact_mod_cast h5
  have rn : (n : ℝ) ≤ 2 ^ 30 := by exact_mod_cast hn.le
  refine ⟨2 ^ gn, ?_, by rw [e2, pow_add]⟩
  rw [g2, rk]
  constructor
  · linarith
  · linarith
  · linarith
  · linarith
  · exact pow_le_pow_right₀ (by norm_num) (by omega)
  · exact pow_le_pow_right₀ (by norm_num) (by omega)
  · calc (n : ℝ) * 2 * 2 ^ gk.sigmaEnc1 ≤ 2 ^ ln * 2 ^ gk.sigmaEnc1 :=
          mul_le_mul_of_nonneg_right r5 (by positivity)
      _ = 2 ^ 109 := by rw [← pow_add]; congr 1; omega
  · positivity
  · rw [rX] at r3
    nlinarith
  · rw [rX] at r4
    nlinarith

/-- The arithmetic behind the bound on the masks. -/
theorem smallness_sq {nn S Q M B R K D c : ℝ} (hS0 : 0 < S) (hQ0 : 0 < Q) (hnn : 0 ≤ nn) (hR : 0 ≤ R) (hM0 : 0 ≤ M)
    (hB0 : 0 ≤ B) (hBM : B ≤ M) (k_lo : 829 * S ≤ K) (r_hi : K ≤ 65 * R ^ 2) (m_hi : M * R ≤ 130000 * D)
    (d_hi : D ≤ 34 * nn * S * Q) (hQ2 : Q ^ 2 ≤ 2 * 124080 * 9490 * nn) (hnS : nn * S ≤ 2 ^ 109) (hc : nn ≤ c) :
    B ^ 2 ≤ 2 ^ 181 * c ^ 2 := by
  have e1 : M ^ 2 * (829 * S) ≤ 65 * (130000 * (34 * nn * S * Q)) ^ 2 := by
    have h1 : M ^ 2 * (829 * S) ≤ M ^ 2 * (65 * R ^ 2) :=
      mul_le_mul_of_nonneg_left (k_lo.trans r_hi) (by positivity)
    have h2 : (M * R) ^ 2 ≤ (130000 * (34 * nn * S * Q)) ^ 2 := by
      apply pow_le_pow_left₀ (by positivity)
      linarith
    rw [mul_pow] at h2
    linarith
  have h1 : (130000 * (34 * nn * S * Q)) ^ 2 = (130000 * 34) ^ 2 * (nn ^ 2 * S) * S * Q ^ 2 := by ring
  have h2 : (130000 * 34) ^ 2 * (nn ^ 2 * S) * S * Q ^ 2 ≤
      (130000 * 34) ^ 2 * (nn ^ 2 * S) * S * (2 * 124080 * 9490 * nn) :=
    mul_le_mul_of_nonneg_left hQ2 (by positivity)
  have h3 : M ^ 2 * 829 * S ≤ 65 * (130000 * 34) ^ 2 * (2 * 124080 * 9490) * (nn ^ 2 * S * nn) * S := by
    rw [h1] at e1
    linarith
  have h4 := le_of_mul_le_mul_right h3 hS0
  have h5 : nn ^ 2 * S * nn ≤ 2 ^ 109 * c ^ 2 := by
    have h2 : nn ^ 2 ≤ c ^ 2 := pow_le_pow_left₀ hnn hc 2
    calc nn ^ 2 * S * nn = (nn * S) * nn ^ 2 := by ring
      _ ≤ 2 ^ 109 * c ^ 2 := mul_le_mul hnS h2 (by positivity) (by positivity)
  have h6 : B ^ 2 ≤ M ^ 2 := pow_le_pow_left₀ hB0 hBM 2
  have h7 : 0 ≤ c ^ 2 := by positivity
  generalize c ^ 2 = cc at *
  generalize nn ^ 2 * S * nn = x at *
  generalize M ^ 2 = MM at *
  linarith

section
variable {P : Params Regev.P} {b m : ℤ}

/-- The dimension of the quadratic blocks and the bounds, all in one place. -/
theorem standard_facts {n : ℕ} (hg : Standard P.gk n) (h5 : 5 ≤ n) (hn : n < 2 ^ 30) (h : BoundsClose P b m) :
    P.B_sk < P.B_eNoise1 ∧ P.B_eNoise1 < P.B_eNoise2 ∧ P.B_eNoise2 < P.B_dNoise ∧
      2000 ≤ P.B_sk ∧ P.B_sk ≤ 3600 ∧ P.B_dNoise ≤ 2 ^ 148 ∧ 2 ^ 23 ≤ P.radix ∧ P.radix ≤ 2 ^ 60 ∧
      0 ≤ P.B_smallness ∧ P.B_smallness ≤ 2 ^ P.smlnsBits ∧
      260 * P.B_smallness ^ 2 < Regev.P ∧ (n < 2 ^ 28 → 260 * (2 * P.B_smallness) ^ 2 < Regev.P) ∧
      P.gk.kay * 2 ≤ 9490 := by
  obtain ⟨Q, hs, hQ⟩ := hg.sizes h5 hn
  have f := bounds_facts h hs hQ
  have hS := hs.S_lo
  have hS' := hs.S_hi
  have hnS := hs.nS
  have hQ' := hs.Q_hi'
  have hQ0 := hs.Q0
  have hQ2 := hs.Q_hi
  have hnn := hs.nn_lo
  have hnn' : (P.gk.enn : ℝ) * 2 ≤ 2 ^ 31 := hs.nn_hi
  have hkk : P.gk.kay * 2 ≤ 9490 := by exact_mod_cast hs.kk_hi
  have hsm := h.smallness f.m0
  have hsb := h.maskBits
  have hn28 : n < 2 ^ 28 → (P.gk.enn : ℝ) * 2 ≤ 2 ^ 29 := by
    intro h28
    have : (n : ℝ) ≤ 2 ^ 28 := by exact_mod_cast h28.le
    rw [hg.enn]
    linarith
  generalize (P.gk.enn : ℝ) * 2 = nn at *
  generalize (2 : ℝ) ^ P.gk.sigmaEnc1 = S at *
  have hS0 : 0 < S := lt_of_lt_of_le (by positivity) hS
  have d_hi := f.d_hi
  have hd : P.B_dNoise ≤ 2 ^ 148 := by
    have : (P.B_dNoise : ℝ) ≤ 2 ^ 148 := by
      have h1 : nn * S * Q ≤ 2 ^ 109 * 2 ^ 33 := by
        apply mul_le_mul hnS hQ' hQ0.le (by positivity)
      have e : 34 * nn * S * Q = 34 * (nn * S * Q) := by ring
      rw [e] at d_hi
      refine d_hi.trans ?_
      linarith
    exact_mod_cast this
  have k_lo := f.k_lo
  have k_hi := f.k_hi
  have r_lo := f.radix_lo
  have r_hi := f.radix_hi
  have hrad0 : (0 : ℝ) ≤ P.radix := by
    rw [h.radix f.b0]
    positivity
  have hrad : 2 ^ 23 ≤ P.radix := by
    have : (2 : ℝ) ^ 23 ≤ P.radix := by
      by_contra hc
      push Not at hc
      have h1 : (P.radix : ℝ) * P.radix ≤ 2 ^ 23 * 2 ^ 23 := mul_le_mul hc.le hc.le hrad0 (by positivity)
      nlinarith
    exact_mod_cast this
  have hrad2 : P.radix ≤ 2 ^ 60 := by
    have : (P.radix : ℝ) ≤ 2 ^ 60 := by
      by_contra hc
      push Not at hc
      have h1 : (2 : ℝ) ^ 60 * 2 ^ 60 ≤ (P.radix : ℝ) * P.radix := mul_le_mul hc.le hc.le (by positivity) hrad0
      nlinarith
    exact_mod_cast this
  -- the masks
  have hM1 : (1 : ℝ) ≤ 2 ^ m.toNat := one_le_pow₀ (by norm_num)
  have m_lo := f.mask_lo
  have m_hi := f.mask_hi
  rw [hsb]
  have hd0 : (0 : ℝ) < P.B_dNoise := by
    have h1 := f.sk_k
    have h2 := f.k_e
    have h3 := f.e_d
    have h4 := f.sk.1
    exact_mod_cast (by omega : 0 < P.B_dNoise)
  have hrd : (P.radix : ℝ) ≤ P.B_dNoise := by
    have h1 : (P.B_kNoise : ℝ) ≤ P.B_dNoise := by exact_mod_cast (f.k_e.trans f.e_d).le
    have h2 : (1 : ℝ) ≤ P.radix := by exact_mod_cast (by omega : 1 ≤ P.radix)
    nlinarith
  have hradpos : (0 : ℝ) < P.radix := by exact_mod_cast (by omega : 0 < P.radix)
  have hM60 : (60000 : ℝ) ≤ 2 ^ m.toNat := by
    by_contra hc
    push Not at hc
    nlinarith
  have s_lo := hsm.lo
  have s_hi := hsm.hi
  have hs0 : 0 ≤ P.B_smallness := by
    have : (0 : ℝ) ≤ P.B_smallness := by nlinarith
    exact_mod_cast this
  have hsM : (P.B_smallness : ℝ) ≤ 2 ^ m.toNat := by nlinarith
  have hsM' : P.B_smallness ≤ 2 ^ m.toNat := by exact_mod_cast hsM
  generalize (2 : ℝ) ^ m.toNat = M at *
  -- the square of the range of the masks
  have e3 : ∀ c : ℝ, nn ≤ c → (P.B_smallness : ℝ) ^ 2 ≤ 2 ^ 181 * c ^ 2 :=
    fun c hc => smallness_sq hS0 hQ0 (by linarith) hradpos.le (by linarith) (by exact_mod_cast hs0) hsM k_lo r_hi
      m_hi d_hi hQ2 hnS hc
  have w1 : 260 * P.B_smallness ^ 2 < Regev.P := by
    have h1 := e3 _ hnn'
    have : (260 : ℝ) * (P.B_smallness : ℝ) ^ 2 < 2 ^ 252 := by linarith
    have : (260 : ℤ) * P.B_smallness ^ 2 < 2 ^ 252 := by exact_mod_cast this
    exact this.trans (by unfold Regev.P; norm_num)
  refine ⟨by rw [h.eNoise1]; exact f.sk_k, by rw [h.eNoise1]; exact f.k_e, f.e_d, f.sk.1, f.sk.2, hd, hrad, hrad2,
    hs0, hsM', w1, ?_, hkk⟩
  intro h28
  have h1 := e3 _ (hn28 h28)
  have : (260 : ℝ) * (2 * (P.B_smallness : ℝ)) ^ 2 < 2 ^ 252 := by rw [mul_pow]; linarith
  have : (260 : ℤ) * (2 * P.B_smallness) ^ 2 < 2 ^ 252 := by exact_mod_cast this
  exact this.trans (by unfold Regev.P; norm_num)

theorem normBound_range {n : ℕ} (hg : Standard P.gk n) (h5 : 5 ≤ n) (hn : n < 2 ^ 30) (h : BoundsClose P b m)
    (k : ℕ) (hk : k < 10) : 0 ≤ normBound P k ∧ normBound P k ≤ 2 ^ 126 - 1 := by
  obtain ⟨a1, a2, a3, a4, a5, a6, a7, a8, a9, a10, -, -, a11⟩ := standard_facts hg h5 hn h
  have hen : P.gk.enn * 2 ≤ 2 ^ 31 := by rw [hg.enn]; omega
  have e1 : P.B_kNoise = P.B_eNoise1 := h.eNoise1.symm
  have e2 := h.r
  have hlo : 0 ≤ loBound P ∧ loBound P ≤ 2 ^ 126 - 1 := by
    unfold loBound SQRT_JL
    omega
  have hsk : 0 ≤ P.B_sk ∧ P.B_sk ≤ 2 ^ 126 - 1 := by omega
  unfold normBound
  have hk' : k = 0 ∨ k = 1 ∨ k = 2 ∨ k = 3 ∨ k = 4 ∨ k = 5 ∨ k = 6 ∨ k = 7 ∨ k = 8 ∨ k = 9 := by omega
  rcases hk' with rfl | rfl | rfl | rfl | rfl | rfl | rfl | rfl | rfl | rfl
  · exact hiBound_range (by omega) a7 (by omega) (by omega)
  · exact hlo
  · rw [show [_, _, P.B_r, _, _, _, _, _, _, _].getD 2 0 = P.B_r from rfl, e2]; exact hsk
  · exact hiBound_range (by omega) a7 (by omega) (by omega)
  · exact hlo
  · exact hiBound_range (by omega) a7 (by omega) hen
  · exact hlo
  · exact hsk
  · exact hiBound_range (by omega) a7 (by omega) (by omega)
  · exact hlo

/-- **C67.** With the parameters that the program chooses for `n` parties, and norm bounds that are within a
thousandth of what they should be: the sanity check of the constructor passes, the bounds fit the
field (as all the theorems about the proofs require) and the smallness bound is not negative. -/
theorem C67_bounds {n : ℕ} (hg : Standard P.gk n) (h5 : 5 ≤ n) (hn : n < 2 ^ 30) (hs : Shaped P.gk)
    (ht : 0 < P.gk.tee) (h : BoundsClose P b m) :
    P.B_sk < P.B_eNoise1 ∧ P.B_eNoise1 < P.B_eNoise2 ∧ P.B_eNoise2 < P.B_dNoise ∧ ParamsOk P ∧
      0 ≤ P.B_smallness ∧ P.B_smallness ≤ 2 ^ P.smlnsBits := by
  obtain ⟨a1, a2, a3, a4, a5, a6, a7, a8, a9, a10, -, -, a11⟩ := standard_facts hg h5 hn h
  refine ⟨a1, a2, a3, ?_, a9, a10⟩
  have hP : (2 : ℤ) ^ 252 < (Regev.P : ℕ) := by unfold Regev.P; norm_num
  have key : ∀ x : ℤ, 0 ≤ x ∧ x ≤ 2 ^ 126 - 1 → 2 * |x| < (Regev.P : ℕ) ∧ x ^ 2 < 2 ^ 256 := by
    intro x hx
    rw [abs_of_nonneg hx.1]
    exact ⟨by omega, by nlinarith⟩
  have hk0 : 0 < P.gk.kay := by
    have := (C35_setParams n (by omega) hn).1
    have := hg.kay
    omega
  refine ⟨hk0, by rw [hg.enn]; omega, ht, ⟨hs.rowsA, hs.colsA⟩, ⟨hs.rowsB, hs.colsB⟩, by omega, ?_⟩
  exact fun k hk => key _ (normBound_range hg h5 hn h k hk)

/-- Sums of squares of representatives. -/
theorem cast_normSq (v : List (ZMod Regev.P)) : ((normSq v : ℤ) : ZMod Regev.P) = (v.map fun x => x * x).sum := by
  unfold normSq
  induction v with
  | nil => simp
  | cons x v ih =>
    simp only [List.map_cons, List.sum_cons, Int.cast_add, ih, Int.cast_pow, ZMod.coe_valMinAbs]
    rw [sq]

theorem normSq_le_mul {q : ℕ} (v : List (ZMod q)) (c : ℤ) (h : ∀ x ∈ v, |x.valMinAbs| ≤ c) :
    0 ≤ normSq v ∧ normSq v ≤ v.length * c ^ 2 := by
  unfold normSq
  induction v with
  | nil => simp
  | cons x v ih =>
    obtain ⟨h1, h2⟩ := ih fun y hy => h y (List.mem_cons_of_mem _ hy)
    have h3 : x.valMinAbs ^ 2 ≤ c ^ 2 := sq_le_sq' (by have := abs_le.1 (h x (by simp)); linarith)
      (abs_le.1 (h x (by simp))).2
    simp only [List.map_cons, List.sum_cons, List.length_cons]
    push_cast
    constructor
    · positivity
    · linarith

/-- **C67.** The norm constraints, which are equations modulo the group order, mean what they say about the
integers: if the values of a block satisfy its constraint and each of them is at most twice the smallness
bound in absolute value, then the squared norm of the block is the square of the bound, over the
integers.  So no value of the block exceeds the norm bound. -/
theorem C67_no_wrap {n : ℕ} (hg : Standard P.gk n) (h5 : 5 ≤ n) (hn : n < 2 ^ 28)
    (h : BoundsClose P b m) (x : ℕ → ZMod Regev.P) (k : ℕ) (hk : k < 10)
    (hsat : QuadSat ⟨List.range' (260 * k) 260, ((normBound P k ^ 2 : ℤ) : ZMod Regev.P)⟩ x x)
    (hx : ∀ i, 260 * k ≤ i → i < 260 * k + 260 → |(x i).valMinAbs| ≤ 2 * P.B_smallness) :
    NormExact P x k ∧ ∀ i, 260 * k ≤ i → i < 260 * k + 260 → |(x i).valMinAbs| ≤ |normBound P k| := by
  obtain ⟨-, -, -, -, -, -, -, -, a9, -, -, a12, -⟩ := standard_facts hg h5 (by omega) h
  have w := a12 hn
  have hnb : normBound P k ^ 2 < (Regev.P : ℕ) := by
    have hb := normBound_range hg h5 (by omega) h k hk
    have hP : (2 : ℤ) ^ 252 < (Regev.P : ℕ) := by unfold Regev.P; norm_num
    nlinarith
  obtain ⟨v, hv⟩ : ∃ v, v = (List.range' (260 * k) 260).map x := ⟨_, rfl⟩
  have hvlen : v.length = 260 := by rw [hv]; simp
  have hmem : ∀ y ∈ v, |y.valMinAbs| ≤ 2 * P.B_smallness := by
    intro y hy
    rw [hv] at hy
    obtain ⟨i, hi, rfl⟩ := List.mem_map.1 hy
    have := List.mem_range'_1.1 hi
    exact hx i this.1 this.2
  obtain ⟨b1, b2⟩ := normSq_le_mul v _ hmem
  rw [hvlen] at b2
  have hcast : ((normSq v : ℤ) : ZMod Regev.P) = ((normBound P k ^ 2 : ℤ) : ZMod Regev.P) := by
    rw [cast_normSq, hv, List.map_map]
    exact hsat
  have heq : normSq v = normBound P k ^ 2 := by
    rw [ZMod.intCast_eq_intCast_iff_dvd_sub] at hcast
    have := Int.eq_zero_of_abs_lt_dvd hcast (by
      rw [abs_lt]
      have := sq_nonneg (normBound P k)
      constructor <;> push_cast at * <;> linarith)
    linarith
  refine ⟨by unfold NormExact; rw [← hv]; exact heq, ?_⟩
  intro i h1 h2
  rw [← sq_le_sq, ← heq]
  have : x i ∈ v := by
    rw [hv]
    exact List.mem_map.2 ⟨i, List.mem_range'_1.2 ⟨h1, h2⟩, rfl⟩
  unfold normSq
  exact List.single_le_sum (by
    intro y hy
    obtain ⟨z, -, rfl⟩ := List.mem_map.1 hy
    positivity) _ (List.mem_map.2 ⟨_, this, rfl⟩)

/-- **C67.** If the compressed noise fits the bound that was computed for it, then so does its high digit: the
addition of `⌈√dim⌉` makes up for the rounding of the digits and of the quotient of the bound, as long as
the dimension is above 64.  (The low digit always fits: `digits_total`.) -/
theorem C67_digits_fit {q : ℕ} [Fact q.Prime] (P : Params q) (B : ℤ) (dim : ℕ) (hdim : 64 < dim) (hB : 0 ≤ B)
    (hr : 1 ≤ P.radix) (hrq : P.radix < q) (v hi lo : EVec q 2) (hv : v.length = 128)
    (hbr : breakTwoDigits v P.radix = .ok (hi, lo)) (hfit : normSq (coeffs v) ≤ B ^ 2) :
    normSq (coeffs hi) ≤ hiBound P B dim ^ 2 := by
  obtain ⟨hi', lo', h1, h2, h3, h4⟩ := C36_digits v P.radix hr hrq
  rw [hbr] at h1
  obtain ⟨rfl, rfl⟩ := Prod.mk.inj (Res.ok.inj h1)
  have hlen : hi.length = 128 := by omega
  rw [normSq_coeffs] at hfit ⊢
  rw [hv] at hfit
  rw [hlen]
  -- as sums over one index set
  rw [← Finset.sum_product'] at hfit ⊢
  obtain ⟨I, hI⟩ : ∃ I, I = Finset.range 128 ×ˢ (Finset.univ : Finset (Fin 2)) := ⟨_, rfl⟩
  rw [← hI] at hfit ⊢
  have hcard : (I.card : ℤ) = 256 := by rw [hI, Finset.card_product]; simp
  obtain ⟨a, ha⟩ : ∃ a : ℕ × Fin 2 → ℤ, a = fun p => ((v.getD p.1 ⟨fun _ => 0⟩).c p.2).valMinAbs := ⟨_, rfl⟩
  obtain ⟨h, hh⟩ : ∃ h : ℕ × Fin 2 → ℤ, h = fun p => ((hi.getD p.1 ⟨fun _ => 0⟩).c p.2).valMinAbs := ⟨_, rfl⟩
  obtain ⟨l, hl⟩ : ∃ l : ℕ × Fin 2 → ℤ, l = fun p => ((lo.getD p.1 ⟨fun _ => 0⟩).c p.2).valMinAbs := ⟨_, rfl⟩
  have hrel : ∀ p ∈ I, l p + P.radix * h p = a p ∧ (2 * l p) ^ 2 ≤ P.radix ^ 2 := by
    intro p hp
    rw [hI, Finset.mem_product, Finset.mem_range] at hp
    obtain ⟨eh, el, g1, g2, g3⟩ := h4 p.1 _ (List.getElem?_eq_getElem (by omega : p.1 < v.length))
    obtain ⟨k1, k2, k3, -⟩ := g3 p.2
    rw [ha, hh, hl]
    simp only
    rw [getD_of_get g1, getD_of_get g2, List.getD_eq_getElem _ _ (by omega : p.1 < v.length)]
    exact ⟨k1, sq_le_sq' (by omega) (by omega)⟩
  have hA : ∑ p ∈ I, a p ^ 2 ≤ B ^ 2 := by rw [ha]; exact hfit
  show ∑ p ∈ I, (((hi.getD p.1 ⟨fun _ => 0⟩).c p.2).valMinAbs) ^ 2 ≤ _
  have e0 : (∑ p ∈ I, (((hi.getD p.1 ⟨fun _ => 0⟩).c p.2).valMinAbs) ^ 2) = ∑ p ∈ I, h p ^ 2 := by rw [hh]
  rw [e0]
  have hL : ∑ p ∈ I, l p ^ 2 ≤ (8 * P.radix) ^ 2 := by
    have : ∑ p ∈ I, 4 * l p ^ 2 ≤ ∑ _p ∈ I, P.radix ^ 2 :=
      Finset.sum_le_sum fun p hp => by have := (hrel p hp).2; linarith [mul_pow 2 (l p) 2]
    rw [← Finset.mul_sum, Finset.sum_const, nsmul_eq_mul, hcard] at this
    linarith [mul_pow 8 P.radix 2]
  have hCS : (∑ p ∈ I, a p * l p) ^ 2 ≤ (B * (8 * P.radix)) ^ 2 := by
    refine (Finset.sum_mul_sq_le_sq_mul_sq I a l).trans ?_
    rw [mul_pow]
    exact mul_le_mul hA hL (Finset.sum_nonneg fun p _ => sq_nonneg _) (sq_nonneg _)
  have hsum : P.radix ^ 2 * ∑ p ∈ I, h p ^ 2 = ∑ p ∈ I, a p ^ 2 - 2 * ∑ p ∈ I, a p * l p + ∑ p ∈ I, l p ^ 2 := by
    rw [Finset.mul_sum, Finset.mul_sum, ← Finset.sum_sub_distrib, ← Finset.sum_add_distrib]
    refine Finset.sum_congr rfl fun p hp => ?_
    rw [← (hrel p hp).1]
    ring
  have hBr : 0 ≤ B * (8 * P.radix) := by positivity
  have hal := (abs_le_of_sq_le_sq' hCS hBr).1
  have hH : P.radix ^ 2 * ∑ p ∈ I, h p ^ 2 ≤ (B + 8 * P.radix) ^ 2 := by
    rw [hsum]
    nlinarith
  -- the quotient
  have hcs : 9 ≤ ceilSqrt dim := by
    unfold ceilSqrt
    have h8 : 8 ≤ Nat.sqrt dim := Nat.le_sqrt.2 (by omega)
    by_cases hc : Nat.sqrt dim * Nat.sqrt dim = dim
    · rw [if_pos hc]
      by_contra h9
      have : Nat.sqrt dim = 8 := by omega
      rw [this] at hc
      omega
    · rw [if_neg hc]; omega
  have hq : B + 8 * P.radix ≤ P.radix * hiBound P B dim := by
    unfold hiBound
    rw [Int.fdiv_eq_ediv_of_nonneg _ (by omega)]
    have e1 := Int.emod_add_mul_ediv B P.radix
    have e2 := Int.emod_lt_of_pos B (by omega : 0 < P.radix)
    have : (9 : ℤ) ≤ ceilSqrt dim := by exact_mod_cast hcs
    nlinarith
  have hfin : P.radix ^ 2 * ∑ p ∈ I, h p ^ 2 ≤ P.radix ^ 2 * hiBound P B dim ^ 2 := by
    refine hH.trans ?_
    rw [← mul_pow]
    exact pow_le_pow_left₀ (by positivity) hq 2
  exact le_of_mul_le_mul_left hfin (by positivity)

/-- The logarithm of `log2BI` is precise enough. -/
theorem log2BI_close {x : ℤ} (h1 : 1 ≤ x) (h2 : x ≤ 2 ^ 148) : |log2BI x - Real.logb 2 x| ≤ 0.001 := by
  have hx : (1 : ℝ) ≤ x := by exact_mod_cast h1
  have hl0 : 0 ≤ Real.log x := Real.log_nonneg hx
  have g1 := Real.log_two_gt_d9
  have g2 := Real.log_two_lt_d9
  have hl1 : Real.log x ≤ 148 * Real.log 2 := by
    have : Real.log x ≤ Real.log ((2 : ℝ) ^ 148) := Real.log_le_log (by linarith) (by exact_mod_cast h2)
    rwa [Real.log_pow] at this
  unfold log2BI Real.logb
  have e : Real.log x / 0.69314718056 - Real.log x / Real.log 2 =
      Real.log x * ((Real.log 2 - 0.69314718056) / (0.69314718056 * Real.log 2)) := by
    field_simp
  rw [e, abs_mul, abs_of_nonneg hl0, abs_div, abs_of_pos (show 0 < 0.69314718056 * Real.log 2 by nlinarith)]
  have h3 : |Real.log 2 - 0.69314718056| ≤ 0.000000001 := by
    rw [abs_le]; constructor <;> linarith
  have h4 : |Real.log 2 - 0.69314718056| / (0.69314718056 * Real.log 2) ≤ 0.000001 := by
    rw [div_le_iff₀ (by nlinarith)]
    nlinarith
  have h5 : 0 ≤ |Real.log 2 - 0.69314718056| / (0.69314718056 * Real.log 2) := by
    apply div_nonneg (abs_nonneg _); nlinarith
  nlinarith

theorem floor_close {x : ℝ} (hx : 0 ≤ x) : Close ⌊x⌋ x := by
  unfold Close
  have h1 := Int.floor_le x
  have h2 := Int.lt_floor_add_one x
  rw [abs_le]
  constructor <;> linarith

theorem ceil_close {x : ℝ} (hx : 0 ≤ x) : Close ⌈x⌉ x := by
  unfold Close
  have h1 := Int.le_ceil x
  have h2 := Int.ceil_lt_add_one x
  rw [abs_le]
  constructor <;> linarith

theorem ceil_closeCeil {x y : ℝ} (h : |x - y| ≤ 0.01) : CloseCeil ⌈x⌉ y := by
  unfold CloseCeil
  have h1 := Int.le_ceil x
  have h2 := Int.ceil_lt_add_one x
  rw [abs_le] at h
  constructor <;> linarith

/-- **C67.** The constructor does not throw for the parameters that the program chooses, and in real
arithmetic its bounds are as close as `BoundsClose` asks. -/
theorem C67_model (delta : ℕ) (gk : GlobalKey Regev.P 2) (H : List (List (ZMod Regev.P))) {n : ℕ}
    (hg : Standard gk n) (h5 : 5 ≤ n) (hn : n < 2 ^ 30) :
    ∃ P b m, verifierBounds delta gk H = .ok P ∧ P.gk = gk ∧ P.H = H ∧ P.delta = delta ∧ BoundsClose P b m := by
  obtain ⟨Q, hs, hQ⟩ := hg.sizes h5 hn
  obtain ⟨B_sk, hsk⟩ : ∃ B : ℤ, B = ⌈2 * √(337 * ((gk.kay * 2 : ℕ) : ℝ))⌉ := ⟨_, rfl⟩
  obtain ⟨B_k, hk⟩ : ∃ B : ℤ, B = multDbl (√(((gk.kay * 2 : ℕ) : ℝ) * 337 / 2)) (2 ^ gk.sigmaEnc1) := ⟨_, rfl⟩
  obtain ⟨B_e, he⟩ : ∃ B : ℤ, B = multDbl (√(((gk.enn * 2 : ℕ) : ℝ) * 337 / 2)) (2 ^ gk.sigmaEnc2) := ⟨_, rfl⟩
  obtain ⟨B_d, hd⟩ : ∃ B : ℤ, B = multDbl (√337 * 1.7) (2 ^ gk.sigmaEnc2 * (gk.enn * 2 : ℕ)) +
    multDbl (√(((gk.kay * 2 : ℕ) : ℝ) * (gk.enn * 2 : ℕ) * 377)) (24 * 2 ^ gk.sigmaEnc1) := ⟨_, rfl⟩
  obtain ⟨b, hb⟩ : ∃ b : ℤ, b = ⌈log2BI B_k / 2⌉ - 3 := ⟨_, rfl⟩
  obtain ⟨m, hm⟩ : ∃ m : ℤ, m = ⌈Real.logb 2 (9.75 * 129 * √2600) + log2BI B_d - b⌉ := ⟨_, rfl⟩
  obtain ⟨P, hP⟩ : ∃ P : Params Regev.P, P =
      { gk, delta, H, B_dNoise := B_d, B_sk, B_r := B_sk, B_eNoise1 := B_k, B_eNoise2 := B_e, B_kNoise := B_k
        B_smallness := multDbl (128 / 129) (oneShl m), smlnsBits := m.toNat, radix := oneShl b } := ⟨_, rfl⟩
  have c1 : Close P.B_sk (2 * √(337 * (P.gk.kay * 2))) := by
    rw [hP]
    dsimp only
    rw [hsk]
    push_cast
    exact ceil_close (by positivity)
  have c2 : Close P.B_kNoise (√(337 * (P.gk.kay * 2) / 2) * 2 ^ P.gk.sigmaEnc1) := by
    rw [hP]
    dsimp only
    rw [hk, multDbl]
    push_cast
    rw [show (gk.kay : ℝ) * 2 * 337 / 2 = 337 * (gk.kay * 2) / 2 by ring]
    exact floor_close (by positivity)
  have c3 : Close P.B_eNoise2 (√(337 * (P.gk.enn * 2) / 2) * 2 ^ P.gk.sigmaEnc2) := by
    rw [hP]
    dsimp only
    rw [he, multDbl]
    push_cast
    rw [show (gk.enn : ℝ) * 2 * 337 / 2 = 337 * (gk.enn * 2) / 2 by ring]
    exact floor_close (by positivity)
  have c4 : Close P.B_dNoise (1.7 * √337 * (P.gk.enn * 2) * 2 ^ P.gk.sigmaEnc2 +
      24 * √(377 * (P.gk.kay * 2) * (P.gk.enn * 2)) * 2 ^ P.gk.sigmaEnc1) := by
    rw [hP]
    dsimp only
    rw [hd, multDbl, multDbl]
    push_cast
    rw [show √(337 : ℝ) * 1.7 * (2 ^ gk.sigmaEnc2 * (gk.enn * 2)) =
        1.7 * √337 * (gk.enn * 2) * 2 ^ gk.sigmaEnc2 by ring,
      show √((gk.kay : ℝ) * 2 * (gk.enn * 2) * 377) * (24 * 2 ^ gk.sigmaEnc1) =
        24 * √(377 * (gk.kay * 2) * (gk.enn * 2)) * 2 ^ gk.sigmaEnc1 by
          rw [show (gk.kay : ℝ) * 2 * (gk.enn * 2) * 377 = 377 * (gk.kay * 2) * (gk.enn * 2) by ring]; ring]
    have hbig : 1000 ≤ 1.7 * √337 * ((gk.enn : ℝ) * 2) * 2 ^ gk.sigmaEnc2 := by
      rw [hQ]
      have h1 := r337.1
      have h2 := hs.nn_lo
      have h3 : (1000 : ℝ) ≤ 2 ^ gk.sigmaEnc1 := le_trans (by norm_num) hs.S_lo
      have h4 : (1 : ℝ) ≤ Q := le_trans (by norm_num) hs.Q_lo'
      have h5 : (1000 : ℝ) * 1 ≤ 2 ^ gk.sigmaEnc1 * Q := mul_le_mul h3 h4 (by norm_num) (by positivity)
      have h6 : (1 : ℝ) * 1 ≤ 1.7 * √337 * ((gk.enn : ℝ) * 2) :=
        mul_le_mul (by linarith) (by linarith) (by norm_num) (by positivity)
      nlinarith
    have hpos : (0 : ℝ) ≤ 24 * √(377 * (gk.kay * 2) * (gk.enn * 2)) * 2 ^ gk.sigmaEnc1 := by positivity
    generalize 1.7 * √337 * ((gk.enn : ℝ) * 2) * 2 ^ gk.sigmaEnc2 = x at *
    generalize 24 * √(377 * ((gk.kay : ℝ) * 2) * (gk.enn * 2)) * 2 ^ gk.sigmaEnc1 = y at *
    unfold Close
    have h1 := Int.floor_le x
    have h2 := Int.lt_floor_add_one x
    have h3 := Int.floor_le y
    have h4 := Int.lt_floor_add_one y
    rw [abs_le]
    push_cast
    constructor <;> linarith
  have eg : P.gk = gk := by rw [hP]
  have hs' : Sizes (P.gk.kay * 2) (P.gk.enn * 2) (2 ^ P.gk.sigmaEnc1) Q := by rw [eg]; exact hs
  obtain ⟨f1, f2, f3, f4, f5, f6, f7, f8⟩ := bounds_facts0 c1 c2 c3 c4 hs' (by rw [eg]; exact hQ)
  have ek : P.B_kNoise = B_k := by rw [hP]
  have ed : P.B_dNoise = B_d := by rw [hP]
  have ee : P.B_eNoise2 = B_e := by rw [hP]
  have es : P.B_sk = B_sk := by rw [hP]
  have hdhi : P.B_dNoise ≤ 2 ^ 148 := by
    have : (P.B_dNoise : ℝ) ≤ 2 ^ 148 := by
      have h1 : ((P.gk.enn : ℝ) * 2) * 2 ^ P.gk.sigmaEnc1 * Q ≤ 2 ^ 109 * 2 ^ 33 := by
        apply mul_le_mul hs'.nS hs'.Q_hi' hs'.Q0.le (by positivity)
      linarith
    exact_mod_cast this
  have l1 := log2BI_close (x := B_k) (by omega) (by omega)
  have l2 := log2BI_close (x := B_d) (by omega) (by omega)
  have hbits : CloseCeil b (Real.logb 2 B_k / 2 - 3) := by
    have : b = ⌈log2BI B_k / 2 - 3⌉ := by
      rw [hb, ← Int.ceil_sub_ofNat]
    rw [this]
    apply ceil_closeCeil
    rw [abs_le] at l1 ⊢
    constructor <;> linarith
  have hmask : CloseCeil m (Real.logb 2 (9.75 * 129 * √2600) + Real.logb 2 B_d - b) := by
    rw [hm]
    apply ceil_closeCeil
    rw [abs_le] at l2 ⊢
    constructor <;> linarith
  refine ⟨P, b, m, ?_, eg, by rw [hP], by rw [hP], ?_⟩
  · unfold verifierBounds
    simp only
    rw [← hsk, ← hk, ← he, ← hd, ← hb, ← hm, if_neg (by omega), hP]
  · refine ⟨c1, by rw [hP], c2, by rw [hP], c3, c4, by rw [ek]; exact hbits, ?_, by rw [ed]; exact hmask,
      by rw [hP], ?_⟩
    · intro h0
      rw [hP]
      show oneShl b = _
      unfold oneShl
      rw [if_neg (by omega)]
    · intro h0
      rw [hP]
      show Close (multDbl (128 / 129) (oneShl m)) _
      unfold oneShl multDbl
      rw [if_neg (by omega)]
      push_cast
      exact floor_close (by positivity)

/-! ### The hypotheses can be met -/

/-- For every number of parties from 5 there is a global key with the dimensions that the program chooses. -/
theorem standard_exists (n : ℕ) (h5 : 5 ≤ n) (hn : n < 2 ^ 30) (crs : ℕ → ℕ → Elt (ZMod Regev.P) 2) :
    ∃ gk : GlobalKey Regev.P 2, GlobalKey.new (setParams 2 n).1 n (setParams 2 n).2.1 (setParams 2 n).2.2 crs = .ok gk ∧
      Standard gk n ∧ Shaped gk ∧ 0 < gk.tee := by
  obtain ⟨h1, h2, h3, -⟩ := C35_setParams n (by omega) hn
  have hnew : ∃ gk : GlobalKey Regev.P 2,
      GlobalKey.new (setParams 2 n).1 n (setParams 2 n).2.1 (setParams 2 n).2.2 crs = .ok gk ∧ 0 < gk.tee := by
    unfold GlobalKey.new
    rw [if_neg (by omega)]
    simp only
    rw [if_neg (by simp; omega)]
    exact ⟨_, rfl, by simp; omega⟩
  obtain ⟨gk, hgk, ht⟩ := hnew
  obtain ⟨a0, -, a1, a2, a3, a4, -⟩ := new_shaped _ _ _ _ _ _ hgk
  exact ⟨gk, hgk, ⟨a1, by exact_mod_cast a2, a3, a4⟩, a0, ht⟩

theorem bounds_exist (n : ℕ) (h5 : 5 ≤ n) (hn : n < 2 ^ 30) :
    ∃ (P : Params Regev.P) (b m : ℤ), Standard P.gk n ∧ Shaped P.gk ∧ 0 < P.gk.tee ∧ BoundsClose P b m := by
  obtain ⟨gk, -, h1, h2, h3⟩ := standard_exists n h5 hn fun _ _ => 0
  obtain ⟨P, b, m, -, rfl, -, -, hb⟩ := C67_model 0 gk [] h1 h5 hn
  exact ⟨P, b, m, h1, h2, h3, hb⟩

/-- The smallness bound is large compared with the digits of the decryption noise. -/
theorem smallness_lo {n : ℕ} (hg : Standard P.gk n) (h5 : 5 ≤ n) (hn : n < 2 ^ 30) (h : BoundsClose P b m) :
    59000 * P.B_dNoise ≤ P.B_smallness * P.radix ∧ P.radix ≤ P.B_dNoise ∧ P.radix ^ 2 ≤ P.B_kNoise := by
  obtain ⟨a1, a2, a3, a4, a5, a6, a7, a8, a9, -⟩ := standard_facts hg h5 hn h
  obtain ⟨Q, hs, hQ⟩ := hg.sizes h5 hn
  have f := bounds_facts h hs hQ
  have hr : P.radix ^ 2 ≤ P.B_kNoise := by exact_mod_cast f.radix_lo
  have hrd : P.radix ≤ P.B_dNoise := by
    have e := h.eNoise1
    nlinarith
  refine ⟨?_, hrd, hr⟩
  have s_lo := (h.smallness f.m0).lo
  have m_lo := f.mask_lo
  have r0 : (0 : ℝ) < P.radix := by exact_mod_cast (by omega : 0 < P.radix)
  have hrd' : (P.radix : ℝ) ≤ P.B_dNoise := by exact_mod_cast hrd
  have : 59000 * (P.B_dNoise : ℝ) ≤ P.B_smallness * P.radix := by
    generalize (2 : ℝ) ^ m.toNat = M at *
    nlinarith
  exact_mod_cast this

/-- The bounds for 512 parties, as `C67_bounds` needs them. -/
example : ∃ (P : Params Regev.P) (b m : ℤ), Standard P.gk 512 ∧ Shaped P.gk ∧ 0 < P.gk.tee ∧ BoundsClose P b m :=
  bounds_exist 512 (by norm_num) (by norm_num)

/-- A vector that meets the norm equation for the secret key with 512 parties, and is small enough for `C67_no_wrap`. -/
example : ∃ (P : Params Regev.P) (b m : ℤ) (x : ℕ → ZMod Regev.P), Standard P.gk 512 ∧ BoundsClose P b m ∧ x 1820 ≠ 0 ∧
    QuadSat ⟨List.range' (260 * 7) 260, ((normBound P 7 ^ 2 : ℤ) : ZMod Regev.P)⟩ x x ∧
    ∀ i, |(x i).valMinAbs| ≤ 2 * P.B_smallness := by
  obtain ⟨P, b, m, h1, h2, h3, h4⟩ := bounds_exist 512 (by norm_num) (by norm_num)
  obtain ⟨a1, a2, a3, a4, a5, a6, a7, a8, a9, -⟩ := standard_facts h1 (by norm_num) (by norm_num) h4
  obtain ⟨c1, c2, c3⟩ := smallness_lo h1 (by norm_num) (by norm_num) h4
  have hsm : 59000 ≤ P.B_smallness := by nlinarith
  have hP : (2 : ℤ) ^ 252 < (Regev.P : ℕ) := by unfold Regev.P; norm_num
  have hv : ((P.B_sk : ZMod Regev.P)).valMinAbs = P.B_sk := by
    apply valMinAbs_cast
    rw [abs_of_nonneg (by omega)]
    omega
  obtain ⟨x, hx⟩ : ∃ x : ℕ → ZMod Regev.P, x = fun i => if i = 1820 then (P.B_sk : ZMod Regev.P) else 0 := ⟨_, rfl⟩
  have x0 : x 1820 = P.B_sk := by rw [hx]; rfl
  have x3 : ∀ i, i ≠ 1820 → x i = 0 := by
    intro i hi
    rw [hx]
    simp only
    rw [if_neg hi]
  refine ⟨P, b, m, x, h1, h4, ?_, ?_, ?_⟩
  · rw [x0]
    intro h0
    rw [h0] at hv
    simp at hv
    omega
  · unfold QuadSat
    dsimp only
    rw [show List.range' (260 * 7) 260 = 1820 :: List.range' 1821 259 from rfl, List.map_cons, List.sum_cons, x0,
      show normBound P 7 = P.B_sk from rfl, List.sum_eq_zero, add_zero]
    · push_cast; ring
    · intro z hz
      obtain ⟨i, hi, rfl⟩ := List.mem_map.1 hz
      rw [List.mem_range'] at hi
      obtain ⟨j, hj, rfl⟩ := hi
      rw [x3 _ (by omega), mul_zero]
  · intro i
    by_cases hi : i = 1820
    · rw [hi, x0, hv, abs_of_nonneg (by omega)]
      omega
    · rw [x3 i hi, ZMod.valMinAbs_zero]
      simp; omega

end
end Verif.Props
