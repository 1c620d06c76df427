/-
Counting form of Chebyshev's inequality, and the moments of a random number of some bits (used by C90).
-/
import Mathlib.Algebra.BigOperators.Ring.Finset
import Mathlib.Algebra.BigOperators.Pi
import Mathlib.Data.Fintype.BigOperators
import Mathlib.Data.Real.Basic
import Mathlib.Algebra.Order.BigOperators.Group.Finset
import Mathlib.SetTheory.Cardinal.Finite
import Mathlib.Tactic.Ring
import Mathlib.Tactic.Linarith
import Mathlib.Tactic.Positivity
import Mathlib.Tactic.FieldSimp

namespace Verif
open scoped BigOperators

variable {ι α : Type} [Fintype ι] [DecidableEq ι] [Fintype α]

theorem sum_pair (g : α → ℝ) (i j : ι) : ∑ x : ι → α, g (x i) * g (x j) =
    ∏ k, ∑ a, (if k = i then g a else 1) * (if k = j then g a else 1) := by
  rw [Finset.prod_univ_sum]
  rw [Fintype.piFinset_univ]
  refine Finset.sum_congr rfl fun x _ => ?_
  rw [Finset.prod_mul_distrib]
  simp

theorem sum_square_centered (g : α → ℝ) (hg : ∑ a, g a = 0) :
    (∑ x : ι → α, (∑ i, g (x i)) ^ 2) * Fintype.card α =
      Fintype.card ι * (Fintype.card α : ℝ) ^ Fintype.card ι * ∑ a, g a ^ 2 := by
  have h1 : ∀ x : ι → α, (∑ i, g (x i)) ^ 2 = ∑ i, ∑ j, g (x i) * g (x j) := by
    intro x
    rw [sq, Finset.sum_mul_sum]
  have h2 : ∀ i : ι, ∑ x : ι → α, ∑ j, g (x i) * g (x j) = ∑ x : ι → α, g (x i) * g (x i) := by
    intro i
    rw [Finset.sum_comm]
    rw [Finset.sum_eq_single i]
    · intro j _ hj
      rw [sum_pair]
      refine Finset.prod_eq_zero (Finset.mem_univ i) ?_
      rw [← hg]
      refine Finset.sum_congr rfl fun a _ => ?_
      rw [if_pos rfl, if_neg (Ne.symm hj), mul_one]
    · intro h; exact absurd (Finset.mem_univ i) h
  have h3 : ∀ i : ι, (∑ x : ι → α, g (x i) * g (x i)) * Fintype.card α =
      (Fintype.card α : ℝ) ^ Fintype.card ι * ∑ a, g a ^ 2 := by
    intro i
    rw [sum_pair, ← Finset.mul_prod_erase _ _ (Finset.mem_univ i)]
    have : ∏ k ∈ Finset.univ.erase i, ∑ a, (if k = i then g a else 1) * (if k = i then g a else 1) =
        (Fintype.card α : ℝ) ^ (Fintype.card ι - 1) := by
      rw [Finset.prod_congr rfl (g := fun _ => (Fintype.card α : ℝ))]
      · rw [Finset.prod_const, Finset.card_erase_of_mem (Finset.mem_univ i), Finset.card_univ]
      · intro k hk
        simp [(Finset.mem_erase.1 hk).1]
    rw [this]
    have hc : Fintype.card ι = (Fintype.card ι - 1) + 1 := by
      have : 0 < Fintype.card ι := Fintype.card_pos_iff.2 ⟨i⟩
      omega
    rw [hc, pow_succ, Nat.add_sub_cancel]
    have : ∑ a, (if i = i then g a else 1) * (if i = i then g a else 1) = ∑ a, g a ^ 2 :=
      Finset.sum_congr rfl fun a _ => by rw [if_pos rfl, sq]
    rw [this]
    ring
  rw [Finset.sum_congr rfl fun x _ => h1 x]
  rw [Finset.sum_comm, Finset.sum_congr rfl fun i _ => h2 i, Finset.sum_mul, Finset.sum_congr rfl fun i _ => h3 i,
    Finset.sum_const, Finset.card_univ, nsmul_eq_mul, mul_assoc]

/-- Chebyshev: `f` has mean `μ` and variance at most `V`; then few choices have a sum that exceeds its mean by `t`. -/
theorem chebyshev [Nonempty α] (f : α → ℝ) (μ V t : ℝ) (h1 : ∑ a, f a = Fintype.card α * μ)
    (h2 : ∑ a, (f a - μ) ^ 2 ≤ Fintype.card α * V) (ht : 0 ≤ t) :
    (Nat.card {x : ι → α // Fintype.card ι * μ + t < ∑ i, f (x i)} : ℝ) * t ^ 2 ≤
      Fintype.card ι * V * (Nat.card (ι → α) : ℝ) := by
  classical
  have hA : (0 : ℝ) < Fintype.card α := by exact_mod_cast Fintype.card_pos
  have hg : ∑ a, (f a - μ) = 0 := by
    rw [Finset.sum_sub_distrib, h1, Finset.sum_const, Finset.card_univ, nsmul_eq_mul, sub_self]
  have hs := sum_square_centered (ι := ι) (fun a => f a - μ) hg
  have hcard : (Nat.card (ι → α) : ℝ) = (Fintype.card α : ℝ) ^ Fintype.card ι := by
    rw [Nat.card_eq_fintype_card, Fintype.card_fun]
    push_cast
    rfl
  have hbad : (Nat.card {x : ι → α // Fintype.card ι * μ + t < ∑ i, f (x i)} : ℝ) * t ^ 2 ≤
      ∑ x : ι → α, (∑ i, (f (x i) - μ)) ^ 2 := by
    rw [Nat.card_eq_fintype_card, Fintype.card_subtype]
    calc _ = ∑ x ∈ Finset.univ.filter (fun x : ι → α => Fintype.card ι * μ + t < ∑ i, f (x i)), t ^ 2 := by
          rw [Finset.sum_const, nsmul_eq_mul]
      _ ≤ ∑ x ∈ Finset.univ.filter (fun x : ι → α => Fintype.card ι * μ + t < ∑ i, f (x i)),
            (∑ i, (f (x i) - μ)) ^ 2 := by
          refine Finset.sum_le_sum fun x hx => ?_
          have hx := (Finset.mem_filter.1 hx).2
          rw [Finset.sum_sub_distrib, Finset.sum_const, Finset.card_univ, nsmul_eq_mul]
          exact pow_le_pow_left₀ ht (by linarith) 2
      _ ≤ _ := Finset.sum_le_sum_of_subset_of_nonneg (Finset.filter_subset _ _) fun _ _ _ => sq_nonneg _
  rw [hcard]
  have hfin : (∑ x : ι → α, (∑ i, (f (x i) - μ)) ^ 2) * Fintype.card α ≤
      (Fintype.card ι * V * (Fintype.card α : ℝ) ^ Fintype.card ι) * Fintype.card α := by
    rw [hs]
    have hp : (0 : ℝ) ≤ Fintype.card ι * (Fintype.card α : ℝ) ^ Fintype.card ι := by positivity
    calc _ ≤ Fintype.card ι * (Fintype.card α : ℝ) ^ Fintype.card ι * (Fintype.card α * V) :=
          mul_le_mul_of_nonneg_left h2 hp
      _ = _ := by ring
  exact hbad.trans (le_of_mul_le_mul_right hfin hA)

/-! ### Random bits -/

theorem sum_sq_range (M : ℕ) : ∑ b ∈ Finset.range M, (b : ℝ) ^ 2 = M * ((M - 1) * (2 * M - 1) / 6) := by
  induction M with
  | zero => simp
  | succ M ih => rw [Finset.sum_range_succ, ih]; push_cast; ring

theorem sum_four_range (M : ℕ) : ∑ b ∈ Finset.range M, (b : ℝ) ^ 4 =
    M * ((M - 1) * (2 * M - 1) * (3 * M ^ 2 - 3 * M - 1) / 30) := by
  induction M with
  | zero => simp
  | succ M ih => rw [Finset.sum_range_succ, ih]; push_cast; ring

/-- The square of a number of some bits with a sign. -/
def bitSq {M : ℕ} (a : Fin M × Bool) : ℝ := (a.1.val : ℝ) ^ 2

theorem sum_bitSq (M : ℕ) : ∑ a : Fin M × Bool, bitSq a =
    Fintype.card (Fin M × Bool) * (((M : ℝ) - 1) * (2 * M - 1) / 6) := by
  rw [Fintype.sum_prod_type]
  simp only [bitSq, Fintype.sum_bool, Fintype.card_prod, Fintype.card_fin, Fintype.card_bool]
  rw [Finset.sum_add_distrib, Fin.sum_univ_eq_sum_range (fun b => (b : ℝ) ^ 2), sum_sq_range]
  push_cast
  ring

theorem var_bitSq (M : ℕ) : ∑ a : Fin M × Bool, (bitSq a - ((M : ℝ) - 1) * (2 * M - 1) / 6) ^ 2 =
    Fintype.card (Fin M × Bool) * (((M : ℝ) - 1) * (2 * M - 1) * (8 * M ^ 2 - 3 * M - 11) / 180) := by
  rw [Fintype.sum_prod_type]
  simp only [bitSq, Fintype.sum_bool, Fintype.card_prod, Fintype.card_fin, Fintype.card_bool]
  rw [Finset.sum_add_distrib,
    Fin.sum_univ_eq_sum_range (fun b => ((b : ℝ) ^ 2 - ((M : ℝ) - 1) * (2 * M - 1) / 6) ^ 2)]
  have : ∀ b : ℕ, ((b : ℝ) ^ 2 - ((M : ℝ) - 1) * (2 * M - 1) / 6) ^ 2 =
      (b : ℝ) ^ 4 - 2 * (((M : ℝ) - 1) * (2 * M - 1) / 6) * (b : ℝ) ^ 2 + (((M : ℝ) - 1) * (2 * M - 1) / 6) ^ 2 := by
    intro b; ring
  simp only [this]
  rw [Finset.sum_add_distrib, Finset.sum_sub_distrib, ← Finset.mul_sum, sum_sq_range, sum_four_range, Finset.sum_const,
    Finset.card_range, nsmul_eq_mul]
  push_cast
  ring

/-- Few choices have squares with a sum above half of the largest possible one. -/
theorem half_count (M : ℕ) (hM : 0 < M) :
    Nat.card {x : ι → Fin M × Bool // (Fintype.card ι : ℝ) * (M : ℝ) ^ 2 / 2 < ∑ i, bitSq (x i)} *
      (5 * Fintype.card ι) ≤ 16 * Nat.card (ι → Fin M × Bool) := by
  haveI : NeZero M := ⟨by omega⟩
  obtain hN | hN := Nat.eq_zero_or_pos (Fintype.card ι)
  · rw [hN]; simp
  have hN' : (0 : ℝ) < Fintype.card ι := by exact_mod_cast hN
  have hM1 : (1 : ℝ) ≤ M := by exact_mod_cast hM
  have hc := chebyshev (ι := ι) (α := Fin M × Bool) bitSq (((M : ℝ) - 1) * (2 * M - 1) / 6) (4 / 45 * (M : ℝ) ^ 4)
    (Fintype.card ι * ((M : ℝ) ^ 2 / 2 - ((M : ℝ) - 1) * (2 * M - 1) / 6)) (sum_bitSq M) (by
      rw [var_bitSq]
      refine mul_le_mul_of_nonneg_left ?_ (by positivity)
      have h1 : ((M : ℝ) - 1) * (2 * M - 1) ≤ 2 * (M : ℝ) ^ 2 := by nlinarith
      have h2 : (0 : ℝ) ≤ ((M : ℝ) - 1) * (2 * M - 1) := mul_nonneg (by linarith) (by linarith)
      have h3 : 8 * (M : ℝ) ^ 2 - 3 * M - 11 ≤ 8 * (M : ℝ) ^ 2 := by linarith
      have h4 : ((M : ℝ) - 1) * (2 * M - 1) * (8 * M ^ 2 - 3 * M - 11) ≤ 2 * (M : ℝ) ^ 2 * (8 * (M : ℝ) ^ 2) :=
        (mul_le_mul_of_nonneg_left h3 h2).trans (mul_le_mul_of_nonneg_right h1 (by positivity))
      nlinarith) (mul_nonneg hN'.le (by nlinarith))
  have he : (Fintype.card ι : ℝ) * (((M : ℝ) - 1) * (2 * M - 1) / 6) +
      Fintype.card ι * ((M : ℝ) ^ 2 / 2 - ((M : ℝ) - 1) * (2 * M - 1) / 6) = Fintype.card ι * (M : ℝ) ^ 2 / 2 := by ring
  rw [he] at hc
  generalize Nat.card {x : ι → Fin M × Bool // (Fintype.card ι : ℝ) * (M : ℝ) ^ 2 / 2 < ∑ i, bitSq (x i)} = B at hc ⊢
  generalize Nat.card (ι → Fin M × Bool) = T at hc ⊢
  have hgap : (M : ℝ) ^ 2 / 6 ≤ (M : ℝ) ^ 2 / 2 - ((M : ℝ) - 1) * (2 * M - 1) / 6 := by nlinarith
  have hsq : (Fintype.card ι * ((M : ℝ) ^ 2 / 6)) ^ 2 ≤
      (Fintype.card ι * ((M : ℝ) ^ 2 / 2 - ((M : ℝ) - 1) * (2 * M - 1) / 6)) ^ 2 :=
    pow_le_pow_left₀ (by positivity) (mul_le_mul_of_nonneg_left hgap hN'.le) 2
  have hfin : (B : ℝ) * (Fintype.card ι * ((M : ℝ) ^ 2 / 6)) ^ 2 ≤ Fintype.card ι * (4 / 45 * (M : ℝ) ^ 4) * T :=
    (mul_le_mul_of_nonneg_left hsq (by positivity)).trans hc
  have hpos : (0 : ℝ) < Fintype.card ι * (M : ℝ) ^ 4 / 180 := by positivity
  have : (B : ℝ) * (5 * Fintype.card ι) ≤ 16 * T := by
    refine le_of_mul_le_mul_right ?_ hpos
    calc _ = (B : ℝ) * (Fintype.card ι * ((M : ℝ) ^ 2 / 6)) ^ 2 := by ring
      _ ≤ _ := hfin
      _ = _ := by ring
  exact_mod_cast this

/-- Two bits and a sign: few choices have squares with a sum above 4 times their number. -/
theorem two_bits_count :
    Nat.card {x : ι → Fin 4 × Bool // (Fintype.card ι : ℝ) * 4 < ∑ i, bitSq (x i)} * Fintype.card ι ≤
      49 * Nat.card (ι → Fin 4 × Bool) := by
  obtain hN | hN := Nat.eq_zero_or_pos (Fintype.card ι)
  · rw [hN]; simp
  have hN' : (0 : ℝ) < Fintype.card ι := by exact_mod_cast hN
  have s1 := sum_bitSq 4
  have s2 := var_bitSq 4
  norm_num at s1 s2
  have hc := chebyshev (ι := ι) (α := Fin 4 × Bool) bitSq (7 / 2) (49 / 4) (Fintype.card ι / 2)
    (by rw [s1]; norm_num) (by rw [s2]; norm_num) (by positivity)
  have he : (Fintype.card ι : ℝ) * (7 / 2) + Fintype.card ι / 2 = Fintype.card ι * 4 := by ring
  rw [he] at hc
  generalize Nat.card {x : ι → Fin 4 × Bool // (Fintype.card ι : ℝ) * 4 < ∑ i, bitSq (x i)} = B at hc ⊢
  generalize Nat.card (ι → Fin 4 × Bool) = T at hc ⊢
  have hpos : (0 : ℝ) < Fintype.card ι / 4 := by positivity
  have : (B : ℝ) * Fintype.card ι ≤ 49 * T := by
    refine le_of_mul_le_mul_right ?_ hpos
    calc _ = (B : ℝ) * (Fintype.card ι / 2) ^ 2 := by ring
      _ ≤ _ := hc
      _ = _ := by ring
  exact_mod_cast this

end Verif
