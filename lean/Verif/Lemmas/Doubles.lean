/-
Facts about doubles: rounding exists, is exact for doubles and has a small relative error; how errors grow.
-/
import Verif.Spec.Doubles
import Verif.Lemmas.Bounds
import Mathlib.Data.Int.Log
import Mathlib.Data.Set.Finite.Lattice
import Mathlib.Order.Interval.Finset.Defs
import Mathlib.Analysis.Complex.ExponentialBounds

namespace Verif
open Spec

theorem isDouble_int {z : ℤ} (h : |z| < 2 ^ 53) : IsDouble (z : ℝ) := ⟨z, 0, h, by norm_num, by norm_num, by simp⟩

theorem isDouble_nat {n : ℕ} (h : n < 2 ^ 53) : IsDouble (n : ℝ) := by
  have := isDouble_int (z := n) (by rw [abs_of_nonneg (by positivity)]; exact_mod_cast h)
  simpa using this

theorem finite_doubles : {x | IsDouble x}.Finite := by
  have h : {x | IsDouble x} ⊆ (fun p : ℤ × ℤ => (p.1 : ℝ) * (2 : ℝ) ^ p.2) ''
      (Set.Icc (-2 ^ 53) (2 ^ 53) ×ˢ Set.Icc (-1074) 971) := by
    rintro x ⟨m, e, h1, h2, h3, rfl⟩
    refine ⟨(m, e), ⟨?_, h2, h3⟩, rfl⟩
    rw [abs_lt] at h1
    exact ⟨h1.1.le, h1.2.le⟩
  exact ((Set.finite_Icc _ _).prod (Set.finite_Icc _ _)).image _ |>.subset h

/-- Every real number has a nearest double. -/
theorem exists_rounded (x : ℝ) : ∃ r, Rounded x r := by
  obtain ⟨r, h1, h2⟩ := Set.exists_min_image _ (fun d => |d - x|) finite_doubles
    ⟨0, 0, 0, by norm_num, by norm_num, by norm_num, by simp⟩
  exact ⟨r, h1, h2⟩

theorem Spec.Rounded.exact {x r : ℝ} (h : Rounded x r) (hx : IsDouble x) : r = x := by
  have := h.2 x hx
  rw [sub_self, abs_zero] at this
  have := abs_nonpos_iff.1 this
  linarith

theorem Spec.Rounded.le {x r d : ℝ} (h : Rounded x r) (hd : IsDouble d) (hx : x ≤ d) : r ≤ d := by
  by_contra hc
  push Not at hc
  have := h.2 d hd
  rw [abs_of_nonneg (by linarith), abs_of_nonneg (by linarith)] at this
  linarith

theorem Spec.Rounded.ge {x r d : ℝ} (h : Rounded x r) (hd : IsDouble d) (hx : d ≤ x) : d ≤ r := by
  by_contra hc
  push Not at hc
  have := h.2 d hd
  rw [abs_of_nonpos (by linarith), abs_of_nonpos (by linarith)] at this
  linarith

/-- The relative error of rounding. -/
theorem Spec.Rounded.rel {x r : ℝ} (h : Rounded x r) (h1 : 1 / 4 ≤ x) (h2 : x ≤ 2 ^ 1000) : |r - x| ≤ x / 2 ^ 50 := by
  have hx : 0 < x := by linarith
  obtain ⟨e, he⟩ : ∃ e, e = Int.log 2 x := ⟨_, rfl⟩
  have l1 : (2 : ℝ) ^ e ≤ x := by
    rw [he]; exact_mod_cast Int.zpow_log_le_self (b := 2) (by norm_num) hx
  have l2 : x < (2 : ℝ) ^ (e + 1) := by
    rw [he]; exact_mod_cast Int.lt_zpow_succ_log_self (b := 2) (by norm_num) x
  have e1 : -3 ≤ e := by
    by_contra hc
    push Not at hc
    have : (2 : ℝ) ^ (e + 1) ≤ 2 ^ (-2 : ℤ) := zpow_le_zpow_right₀ (by norm_num) (by omega)
    norm_num at this
    linarith
  have e2 : e ≤ 1000 := by
    by_contra hc
    push Not at hc
    have : (2 : ℝ) ^ (1001 : ℤ) ≤ 2 ^ e := zpow_le_zpow_right₀ (by norm_num) (by omega)
    have h3 : (2 : ℝ) ^ (1001 : ℤ) = 2 * 2 ^ 1000 := by
      rw [show (1001 : ℤ) = ((1001 : ℕ) : ℤ) by norm_num, zpow_natCast, pow_succ]; ring
    have h4 : (0 : ℝ) < 2 ^ 1000 := by positivity
    rw [h3] at this
    generalize (2 : ℝ) ^ 1000 = z at *
    linarith
  obtain ⟨w, hw⟩ : ∃ w : ℝ, w = 2 ^ (e - 52) := ⟨_, rfl⟩
  have w0 : 0 < w := by rw [hw]; positivity
  have we : (2 : ℝ) ^ e = w * 2 ^ 52 := by
    rw [hw, ← zpow_natCast, ← zpow_add₀ (by norm_num)]; congr 1; push_cast; ring
  have we1 : (2 : ℝ) ^ (e + 1) = w * 2 ^ 53 := by
    rw [hw, ← zpow_natCast, ← zpow_add₀ (by norm_num)]; congr 1; push_cast; ring
  have f1 := Int.floor_le (x / w)
  have f2 := Int.lt_floor_add_one (x / w)
  rw [le_div_iff₀ w0] at f1
  rw [div_lt_iff₀ w0] at f2
  have m0 : 0 ≤ ⌊x / w⌋ := Int.floor_nonneg.2 (by positivity)
  have m1 : ⌊x / w⌋ < 2 ^ 53 := by
    rw [Int.floor_lt, div_lt_iff₀ w0]
    push_cast
    rw [we1] at l2
    linarith
  have hd : IsDouble (⌊x / w⌋ * w) := ⟨⌊x / w⌋, e - 52, by rw [abs_of_nonneg m0]; exact m1, by omega, by omega, by rw [hw]⟩
  refine (h.2 _ hd).trans ?_
  rw [abs_le]
  have : w * 2 ^ 50 ≤ x := by
    rw [we] at l1
    linarith [show w * 2 ^ 52 = 4 * (w * 2 ^ 50) by ring, show 0 < w * 2 ^ 50 by positivity]
  have : w ≤ x / 2 ^ 50 := by rw [le_div_iff₀ (by positivity)]; exact this
  constructor <;> linarith

/-- The absolute error of rounding a number that is not large. -/
theorem Spec.Rounded.abs {x r : ℝ} (h : Rounded x r) (hx : |x| ≤ 2 ^ 20) : |r - x| ≤ 1 / 2 ^ 30 := by
  have f1 := Int.floor_le (x * 2 ^ 30)
  have f2 := Int.lt_floor_add_one (x * 2 ^ 30)
  have hx' := abs_le.1 hx
  have hx1 := hx'.1
  have hx2 := hx'.2
  have hd : IsDouble (⌊x * 2 ^ 30⌋ * (2 : ℝ) ^ (-30 : ℤ)) := by
    refine ⟨_, _, ?_, by norm_num, by norm_num, rfl⟩
    have a1 : (-(2 ^ 51) : ℝ) < ⌊x * 2 ^ 30⌋ := by linarith
    have a2 : (⌊x * 2 ^ 30⌋ : ℝ) < 2 ^ 51 := by linarith
    have a1 : -(2 ^ 51) < ⌊x * 2 ^ 30⌋ := by exact_mod_cast a1
    have a2 : ⌊x * 2 ^ 30⌋ < 2 ^ 51 := by exact_mod_cast a2
    rw [abs_lt]
    constructor <;> omega
  refine (h.2 _ hd).trans ?_
  have e : (2 : ℝ) ^ (-30 : ℤ) = 1 / 2 ^ 30 := by norm_num
  rw [e, abs_le]
  clear hd e
  generalize (⌊x * 2 ^ 30⌋ : ℝ) = f at *
  norm_num at f1 f2 ⊢
  constructor <;> linarith

/-- Relative error. -/
def Near (ε a x : ℝ) : Prop := 0 ≤ ε ∧ 0 < x ∧ |a - x| ≤ ε * x

theorem Near.mono {ε δ a x : ℝ} (h : Near ε a x) (hd : ε ≤ δ) : Near δ a x :=
  ⟨h.1.trans hd, h.2.1, h.2.2.trans (mul_le_mul_of_nonneg_right hd h.2.1.le)⟩

theorem near_self {x : ℝ} (hx : 0 < x) : Near 0 x x := ⟨le_rfl, hx, by simp⟩

theorem Near.lo {ε a x : ℝ} (h : Near ε a x) : (1 - ε) * x ≤ a := by
  have := (abs_le.1 h.2.2).1; linarith

theorem Near.hi {ε a x : ℝ} (h : Near ε a x) : a ≤ (1 + ε) * x := by
  have := (abs_le.1 h.2.2).2; linarith

theorem near_iff {ε a x : ℝ} (h0 : 0 ≤ ε) (hx : 0 < x) (h1 : (1 - ε) * x ≤ a) (h2 : a ≤ (1 + ε) * x) : Near ε a x :=
  ⟨h0, hx, by rw [abs_le]; constructor <;> linarith⟩

theorem Near.pos {ε a x : ℝ} (h : Near ε a x) (he : ε < 1) : 0 < a := by
  have := h.lo
  have := h.2.1
  nlinarith

/-- Errors add up. -/
theorem Near.trans {ε δ a b x : ℝ} (h : Near ε a b) (h' : Near δ b x) : Near (ε + δ + ε * δ) a x := by
  refine ⟨by have := h.1; have := h'.1; positivity, h'.2.1, ?_⟩
  have h1 := h.2.2
  have h2 := h'.2.2
  have h3 := h'.hi
  have : |a - x| ≤ |a - b| + |b - x| := abs_sub_le a b x
  have : ε * b ≤ ε * ((1 + δ) * x) := mul_le_mul_of_nonneg_left h3 h.1
  nlinarith

theorem Near.mul {ε δ a b x y : ℝ} (h : Near ε a x) (h' : Near δ b y) : Near (ε + δ + ε * δ) (a * b) (x * y) := by
  refine ⟨by have := h.1; have := h'.1; positivity, mul_pos h.2.1 h'.2.1, ?_⟩
  have e : a * b - x * y = (a - x) * (b - y) + (a - x) * y + x * (b - y) := by ring
  rw [e]
  have h1 := h.2.2
  have h2 := h'.2.2
  have hx := h.2.1
  have hy := h'.2.1
  calc |(a - x) * (b - y) + (a - x) * y + x * (b - y)| ≤ |(a - x) * (b - y)| + |(a - x) * y| + |x * (b - y)| :=
        abs_add_three _ _ _
    _ = |a - x| * |b - y| + |a - x| * y + x * |b - y| := by
        rw [abs_mul, abs_mul, abs_mul, abs_of_pos hx, abs_of_pos hy]
    _ ≤ (ε * x) * (δ * y) + (ε * x) * y + x * (δ * y) := by
        have := mul_le_mul h1 h2 (abs_nonneg _) (mul_nonneg h.1 hx.le)
        have := mul_le_mul_of_nonneg_right h1 hy.le
        have := mul_le_mul_of_nonneg_left h2 hx.le
        linarith
    _ = _ := by ring

theorem Near.sqrt {ε a x : ℝ} (h : Near ε a x) (he : ε < 1) : Near ε √a √x := by
  have hx := h.2.1
  have ha := h.pos he
  have sx := Real.sqrt_pos.2 hx
  have sa := Real.sqrt_pos.2 ha
  refine ⟨h.1, sx, ?_⟩
  have e : (√a - √x) * (√a + √x) = a - x := by
    have h1 := Real.mul_self_sqrt ha.le
    have h2 := Real.mul_self_sqrt hx.le
    linear_combination h1 - h2
  have h1 : |√a - √x| * √x ≤ |a - x| := by
    rw [← e, abs_mul, abs_of_pos (show 0 < √a + √x by linarith)]
    exact mul_le_mul_of_nonneg_left (by linarith) (abs_nonneg _)
  have h2 := h1.trans h.2.2
  have h3 : ε * x = ε * √x * √x := by
    rw [mul_assoc, Real.mul_self_sqrt hx.le]
  rw [h3] at h2
  exact le_of_mul_le_mul_right h2 sx

theorem Near.div_const {ε a x c : ℝ} (h : Near ε a x) (hc : 0 < c) : Near ε (a / c) (x / c) := by
  refine ⟨h.1, div_pos h.2.1 hc, ?_⟩
  rw [← sub_div, abs_div, abs_of_pos hc, ← mul_div_assoc]
  exact div_le_div_of_nonneg_right h.2.2 hc.le

theorem Spec.Rounded.near {x r : ℝ} (h : Rounded x r) (h1 : 1 / 4 ≤ x) (h2 : x ≤ 2 ^ 1000) : Near (1 / 2 ^ 50) r x :=
  ⟨by positivity, by linarith, (h.rel h1 h2).trans (by rw [one_div, inv_mul_eq_div])⟩

end Verif
