/-
The exponential moments of the product of a vector with a random ternary matrix.
-/
import Mathlib.Analysis.SpecialFunctions.Gaussian.GaussianIntegral
import Mathlib.Analysis.Complex.ExponentialBounds
import Mathlib.Analysis.SpecialFunctions.Trigonometric.Series
import Mathlib.Data.Fintype.BigOperators

namespace Verif
open scoped BigOperators
open MeasureTheory

/-- The value of a pair of random bits, as a number 0, …, 3. -/
def pairTern : Fin 4 → ℤ := ![0, 1, -1, 0]

/-- `∫ exp(-t²+2ct) dt = √π·exp(c²)`, and the integral converges. -/
theorem gauss_shift (c : ℝ) : Integrable (fun t : ℝ => Real.exp (-t ^ 2 + 2 * c * t)) ∧
    ∫ t : ℝ, Real.exp (-t ^ 2 + 2 * c * t) = √Real.pi * Real.exp (c ^ 2) := by
  have e : ∀ t : ℝ, Real.exp (-t ^ 2 + 2 * c * t) = Real.exp (-1 * (t - c) ^ 2) * Real.exp (c ^ 2) := by
    intro t
    rw [← Real.exp_add]
    congr 1
    ring
  constructor
  · simp_rw [e]
    exact ((integrable_exp_neg_mul_sq (b := 1) one_pos).comp_sub_right c).mul_const _
  · simp_rw [e]
    rw [integral_mul_const, integral_sub_right_eq_self (fun t : ℝ => Real.exp (-1 * t ^ 2)) c, integral_gaussian, div_one]

/-- The moments of one random entry are at most those of a normal variable of variance 1/2. -/
theorem sum_pairTern (x : ℝ) : ∑ a : Fin 4, Real.exp (pairTern a * x) ≤ 4 * Real.exp (x ^ 2 / 4) := by
  have h1 : ∑ a : Fin 4, Real.exp (pairTern a * x) = 4 * Real.cosh (x / 2) ^ 2 := by
    have e1 : Real.exp x = Real.exp (x / 2) ^ 2 := by rw [← Real.exp_nat_mul]; congr 1; push_cast; ring
    have e2 : Real.exp (-x) = Real.exp (-(x / 2)) ^ 2 := by rw [← Real.exp_nat_mul]; congr 1; push_cast; ring
    have e3 : Real.exp (x / 2) * Real.exp (-(x / 2)) = 1 := by rw [← Real.exp_add]; simp
    have p0 : ((pairTern 0 : ℤ) : ℝ) = 0 := by simp [pairTern]
    have p1 : ((pairTern 1 : ℤ) : ℝ) = 1 := by simp [pairTern]
    have p2 : ((pairTern 2 : ℤ) : ℝ) = -1 := by simp [pairTern]
    have p3 : ((pairTern 3 : ℤ) : ℝ) = 0 := by simp [pairTern]
    rw [Fin.sum_univ_four, p0, p1, p2, p3, zero_mul, Real.exp_zero, one_mul, neg_one_mul, Real.cosh_eq, e1, e2]
    linear_combination (-2) * e3
  have h2 := Real.cosh_le_exp_half_sq (x / 2)
  have h3 : Real.cosh (x / 2) ^ 2 ≤ Real.exp ((x / 2) ^ 2 / 2) ^ 2 := pow_le_pow_left₀ (Real.cosh_pos _).le h2 2
  rw [h1]
  refine mul_le_mul_of_nonneg_left (h3.trans (le_of_eq ?_)) (by norm_num)
  rw [← Real.exp_nat_mul]
  congr 1
  push_cast
  ring

section
variable {ι : Type} [Fintype ι] [DecidableEq ι]

/-- The two coordinates of the product of the vector with entries `(c i, d i)` and one random column. -/
def prodRe (c d : ι → ℝ) (e : ι → Fin 4 × Fin 4) : ℝ :=
  ∑ i, ((pairTern (e i).1 : ℝ) * c i - (pairTern (e i).2 : ℝ) * d i)
/-- see `prodRe` -/
def prodIm (c d : ι → ℝ) (e : ι → Fin 4 × Fin 4) : ℝ :=
  ∑ i, ((pairTern (e i).2 : ℝ) * c i + (pairTern (e i).1 : ℝ) * d i)

/-- The joint exponential moments of the two coordinates. -/
theorem sum_linear (c d : ι → ℝ) (t s : ℝ) :
    ∑ e : ι → Fin 4 × Fin 4, Real.exp (t * prodRe c d e + s * prodIm c d e) ≤
      16 ^ Fintype.card ι * Real.exp ((t ^ 2 + s ^ 2) * (∑ i, (c i ^ 2 + d i ^ 2)) / 4) := by
  have h1 : ∀ e : ι → Fin 4 × Fin 4, Real.exp (t * prodRe c d e + s * prodIm c d e) =
      ∏ i, (Real.exp (pairTern (e i).1 * (t * c i + s * d i)) * Real.exp (pairTern (e i).2 * (s * c i - t * d i))) := by
    intro e
    simp_rw [← Real.exp_add]
    rw [← Real.exp_sum]
    congr 1
    unfold prodRe prodIm
    rw [Finset.mul_sum, Finset.mul_sum, ← Finset.sum_add_distrib]
    exact Finset.sum_congr rfl fun i _ => by ring
  simp_rw [h1]
  have h2 := Finset.prod_univ_sum (fun _ : ι => (Finset.univ : Finset (Fin 4 × Fin 4)))
    (fun i p => Real.exp (pairTern p.1 * (t * c i + s * d i)) * Real.exp (pairTern p.2 * (s * c i - t * d i)))
  rw [Fintype.piFinset_univ] at h2
  rw [← h2]
  have h3 : ∀ i, ∑ p : Fin 4 × Fin 4, Real.exp (pairTern p.1 * (t * c i + s * d i)) *
      Real.exp (pairTern p.2 * (s * c i - t * d i)) ≤ 16 * Real.exp ((t ^ 2 + s ^ 2) * (c i ^ 2 + d i ^ 2) / 4) := by
    intro i
    rw [Fintype.sum_prod_type]
    simp_rw [← Finset.mul_sum]
    rw [← Finset.sum_mul]
    refine (mul_le_mul (sum_pairTern _) (sum_pairTern _) (Finset.sum_nonneg fun _ _ => (Real.exp_pos _).le)
      (by positivity)).trans (le_of_eq ?_)
    rw [mul_mul_mul_comm, ← Real.exp_add]
    congr 1
    · norm_num
    · congr 1
      ring
  refine (Finset.prod_le_prod (fun i _ => Finset.sum_nonneg fun _ _ => by positivity) fun i _ => h3 i).trans
    (le_of_eq ?_)
  rw [Finset.prod_mul_distrib, Finset.prod_const, Finset.card_univ, ← Real.exp_sum]
  congr 2
  rw [Finset.mul_sum, Finset.sum_div]

/-- The exponential moment of the squared length of the product with one random column. -/
theorem sum_square (c d : ι → ℝ) (lam : ℝ) (h0 : 0 ≤ lam) (h1 : lam * (∑ i, (c i ^ 2 + d i ^ 2)) < 1) :
    ∑ e : ι → Fin 4 × Fin 4, Real.exp (lam * (prodRe c d e ^ 2 + prodIm c d e ^ 2)) ≤
      16 ^ Fintype.card ι * (1 - lam * (∑ i, (c i ^ 2 + d i ^ 2)))⁻¹ := by
  obtain ⟨N, hN⟩ : ∃ N, N = ∑ i, (c i ^ 2 + d i ^ 2) := ⟨_, rfl⟩
  rw [← hN] at h1 ⊢
  obtain ⟨r, hr⟩ : ∃ r, r = √lam := ⟨_, rfl⟩
  have hr2 : r ^ 2 = lam := by rw [hr, Real.sq_sqrt h0]
  obtain ⟨A, hA⟩ : ∃ A : (ι → Fin 4 × Fin 4) → ℝ → ℝ, A = fun e t => Real.exp (-t ^ 2 + 2 * (r * prodRe c d e) * t) :=
    ⟨_, rfl⟩
  obtain ⟨B, hB⟩ : ∃ B : (ι → Fin 4 × Fin 4) → ℝ → ℝ, B = fun e t => Real.exp (-t ^ 2 + 2 * (r * prodIm c d e) * t) :=
    ⟨_, rfl⟩
  have hAi : ∀ e, Integrable (A e) ∧ ∫ t, A e t = √Real.pi * Real.exp (lam * prodRe c d e ^ 2) := by
    intro e
    rw [hA]
    have := gauss_shift (r * prodRe c d e)
    rwa [mul_pow, hr2] at this
  have hBi : ∀ e, Integrable (B e) ∧ ∫ t, B e t = √Real.pi * Real.exp (lam * prodIm c d e ^ 2) := by
    intro e
    rw [hB]
    have := gauss_shift (r * prodIm c d e)
    rwa [mul_pow, hr2] at this
  have hpt : ∀ t s, ∑ e, A e t * B e s ≤ 16 ^ Fintype.card ι * (Real.exp (-(1 - lam * N) * t ^ 2) *
      Real.exp (-(1 - lam * N) * s ^ 2)) := by
    intro t s
    have e1 : ∀ e, A e t * B e s = Real.exp (-t ^ 2 + -s ^ 2) *
        Real.exp ((2 * r * t) * prodRe c d e + (2 * r * s) * prodIm c d e) := by
      intro e
      rw [hA, hB]
      simp only
      rw [← Real.exp_add, ← Real.exp_add]
      congr 1
      ring
    simp_rw [e1]
    rw [← Finset.mul_sum]
    refine (mul_le_mul_of_nonneg_left (sum_linear c d (2 * r * t) (2 * r * s)) (Real.exp_pos _).le).trans (le_of_eq ?_)
    rw [← hN, mul_left_comm, ← Real.exp_add, ← Real.exp_add]
    congr 2
    rw [show ((2 * r * t) ^ 2 + (2 * r * s) ^ 2) * N / 4 = r ^ 2 * N * (t ^ 2 + s ^ 2) by ring, hr2]
    ring
  have hpos : 0 < 1 - lam * N := by linarith
  have hg : Integrable fun t : ℝ => Real.exp (-(1 - lam * N) * t ^ 2) := integrable_exp_neg_mul_sq hpos
  have hgi : ∫ t : ℝ, Real.exp (-(1 - lam * N) * t ^ 2) = √(Real.pi / (1 - lam * N)) := integral_gaussian _
  -- integrate over the second variable
  have hs : ∀ t, ∑ e, A e t * (√Real.pi * Real.exp (lam * prodIm c d e ^ 2)) ≤
      16 ^ Fintype.card ι * (Real.exp (-(1 - lam * N) * t ^ 2) * √(Real.pi / (1 - lam * N))) := by
    intro t
    have e1 : ∑ e, A e t * (√Real.pi * Real.exp (lam * prodIm c d e ^ 2)) = ∫ s, ∑ e, A e t * B e s := by
      rw [integral_finset_sum _ fun e _ => (hBi e).1.const_mul _]
      refine Finset.sum_congr rfl fun e _ => ?_
      rw [integral_const_mul, (hBi e).2]
    rw [e1, ← hgi, ← integral_const_mul, ← integral_const_mul]
    exact integral_mono (integrable_finset_sum _ fun e _ => (hBi e).1.const_mul _) ((hg.const_mul _).const_mul _)
      fun s => hpt t s
  -- and over the first
  have ht : ∑ e, (√Real.pi * Real.exp (lam * prodRe c d e ^ 2)) * (√Real.pi * Real.exp (lam * prodIm c d e ^ 2)) ≤
      16 ^ Fintype.card ι * (√(Real.pi / (1 - lam * N)) * √(Real.pi / (1 - lam * N))) := by
    have e1 : ∑ e, (√Real.pi * Real.exp (lam * prodRe c d e ^ 2)) * (√Real.pi * Real.exp (lam * prodIm c d e ^ 2)) =
        ∫ t, ∑ e, A e t * (√Real.pi * Real.exp (lam * prodIm c d e ^ 2)) := by
      rw [integral_finset_sum _ fun e _ => (hAi e).1.mul_const _]
      refine Finset.sum_congr rfl fun e _ => ?_
      rw [integral_mul_const, (hAi e).2]
    rw [e1]
    nth_rw 1 [← hgi]
    rw [← integral_mul_const, ← integral_const_mul]
    exact integral_mono (integrable_finset_sum _ fun e _ => (hAi e).1.mul_const _) ((hg.mul_const _).const_mul _)
      fun t => hs t
  have hpi := Real.pi_pos
  have e2 : ∑ e, (√Real.pi * Real.exp (lam * prodRe c d e ^ 2)) * (√Real.pi * Real.exp (lam * prodIm c d e ^ 2)) =
      Real.pi * ∑ e, Real.exp (lam * (prodRe c d e ^ 2 + prodIm c d e ^ 2)) := by
    rw [Finset.mul_sum]
    refine Finset.sum_congr rfl fun e _ => ?_
    rw [mul_add, Real.exp_add, mul_mul_mul_comm, Real.mul_self_sqrt hpi.le]
  rw [e2, Real.mul_self_sqrt (by positivity)] at ht
  refine le_of_mul_le_mul_left (ht.trans (le_of_eq ?_)) hpi
  field_simp

/-- Few matrices make the squared length of the product large: `m` random columns. -/
theorem tail_count (m : ℕ) (c d : ι → ℝ) (lam T : ℝ) (h0 : 0 ≤ lam) (h1 : lam * (∑ i, (c i ^ 2 + d i ^ 2)) < 1) :
    (Nat.card {e : Fin m → ι → Fin 4 × Fin 4 // T < ∑ j, (prodRe c d (e j) ^ 2 + prodIm c d (e j) ^ 2)} : ℝ) *
      Real.exp (lam * T) ≤
      (16 ^ Fintype.card ι) ^ m * ((1 - lam * (∑ i, (c i ^ 2 + d i ^ 2)))⁻¹) ^ m := by
  classical
  have hp := Finset.prod_univ_sum (fun _ : Fin m => (Finset.univ : Finset (ι → Fin 4 × Fin 4)))
    (fun _ e => Real.exp (lam * (prodRe c d e ^ 2 + prodIm c d e ^ 2)))
  rw [Fintype.piFinset_univ, Finset.prod_const, Finset.card_univ, Fintype.card_fin] at hp
  have hm := pow_le_pow_left₀ (Finset.sum_nonneg fun _ _ => (Real.exp_pos _).le) (sum_square c d lam h0 h1) m
  rw [hp, mul_pow] at hm
  refine le_trans ?_ hm
  rw [Nat.card_eq_fintype_card, Fintype.card_subtype, ← nsmul_eq_mul, ← Finset.sum_const]
  refine (Finset.sum_le_sum fun e he => ?_).trans
    (Finset.sum_le_sum_of_subset_of_nonneg (Finset.filter_subset _ _) fun e _ _ => Finset.prod_nonneg fun _ _ => (Real.exp_pos _).le)
  rw [← Real.exp_sum, ← Finset.mul_sum]
  exact Real.exp_le_exp.2 (mul_le_mul_of_nonneg_left (Finset.mem_filter.1 he).2.le h0)

end

/-- `exp(-208)·(21/8)^128 < 2^-121`. -/
theorem exp_numbers : ((21 : ℝ) / 8) ^ 128 * 2 ^ 121 ≤ Real.exp 208 := by
  have h : Real.exp 208 = Real.exp 1 ^ 208 := by rw [← Real.exp_nat_mul]; norm_num
  rw [h]
  refine le_trans ?_ (pow_le_pow_left₀ (by norm_num) Real.exp_one_gt_d9.le 208)
  norm_num

/-- 128 random columns: the squared length of the product is more than 336 times that of the vector for less than a
fraction `2^-121` of the matrices. -/
theorem tail_336 {ι : Type} [Fintype ι] [DecidableEq ι] (c d : ι → ℝ) :
    Nat.card {e : Fin 128 → ι → Fin 4 × Fin 4 //
      336 * (∑ i, (c i ^ 2 + d i ^ 2)) < ∑ j, (prodRe c d (e j) ^ 2 + prodIm c d (e j) ^ 2)} * 2 ^ 121 ≤
      (16 ^ Fintype.card ι) ^ 128 := by
  obtain ⟨N, hN⟩ : ∃ N, N = ∑ i, (c i ^ 2 + d i ^ 2) := ⟨_, rfl⟩
  have hN0 : 0 ≤ N := by rw [hN]; exact Finset.sum_nonneg fun i _ => by positivity
  rcases hN0.eq_or_lt with hz | hpos
  · have hz' : ∀ i, c i = 0 ∧ d i = 0 := by
      intro i
      have := (Finset.sum_eq_zero_iff_of_nonneg (s := Finset.univ) (f := fun i => c i ^ 2 + d i ^ 2)
        fun i _ => by positivity).1 (hN.symm.trans hz.symm) i (Finset.mem_univ i)
      constructor <;> nlinarith [sq_nonneg (c i), sq_nonneg (d i)]
    have he : IsEmpty {e : Fin 128 → ι → Fin 4 × Fin 4 //
        336 * (∑ i, (c i ^ 2 + d i ^ 2)) < ∑ j, (prodRe c d (e j) ^ 2 + prodIm c d (e j) ^ 2)} := by
      refine ⟨fun ⟨e, this⟩ => ?_⟩
      rw [← hN, ← hz] at this
      simp [prodRe, prodIm, hz'] at this
    rw [Nat.card_of_isEmpty]
    simp
  · have h := tail_count 128 c d (13 / 21 / N) (336 * N) (by positivity)
      (by rw [← hN, div_mul_cancel₀ _ hpos.ne']; norm_num)
    rw [← hN] at h ⊢
    rw [div_mul_cancel₀ _ hpos.ne', show 13 / 21 / N * (336 * N) = 208 by field_simp; norm_num] at h
    have h2 := exp_numbers
    rw [show (1 - (13 : ℝ) / 21)⁻¹ = 21 / 8 by norm_num] at h
    obtain ⟨K, hK⟩ : ∃ K, K = Nat.card {e : Fin 128 → ι → Fin 4 × Fin 4 //
      336 * N < ∑ j, (prodRe c d (e j) ^ 2 + prodIm c d (e j) ^ 2)} := ⟨_, rfl⟩
    rw [← hK] at h ⊢
    have h3 : (K : ℝ) * 2 ^ 121 * (21 / 8) ^ 128 ≤ (16 ^ Fintype.card ι) ^ 128 * (21 / 8) ^ 128 := by
      refine le_trans ?_ h
      rw [mul_assoc, mul_comm ((2 : ℝ) ^ 121)]
      exact mul_le_mul_of_nonneg_left h2 (Nat.cast_nonneg _)
    have h4 := le_of_mul_le_mul_right h3 (by positivity)
    exact_mod_cast h4

end Verif
