/-
How the operations of a machine with IEEE arithmetic approximate those on real numbers.
-/
import Verif.Lemmas.Doubles
import Verif.Props.Bounds

namespace Verif
open Spec Regev

variable {M : Machine}

/-- A double with a small relative error. -/
structure Ap (ε a x : ℝ) : Prop where
  isD : IsDouble a
  near : Near ε a x
  small : ε ≤ 1 / 100
  lo : 1 / 2 ≤ x
  hi : x ≤ 2 ^ 200

theorem Spec.Rounded.ap {ε η a x r : ℝ} (h : Rounded a r) (ha : Near ε a x) (hε : ε ≤ 1 / 20) (lo : 1 / 2 ≤ x)
    (hi : x ≤ 2 ^ 200) (hη : 1 / 2 ^ 50 + ε + 1 / 2 ^ 50 * ε ≤ η) (hs : η ≤ 1 / 100) : Ap η r x := by
  have h1 := ha.lo
  have h2 := ha.hi
  have e0 := ha.1
  refine ⟨h.1, ((h.near ?_ ?_).trans ha).mono hη, hs, lo, hi⟩
  · nlinarith
  · refine (show a ≤ 2 ^ 201 from ?_).trans (pow_le_pow_right₀ (by norm_num) (by norm_num))
    have : (1 + ε) * x ≤ 2 * x := mul_le_mul_of_nonneg_right (by linarith) (by linarith)
    have e : (2 : ℝ) ^ 201 = 2 * 2 ^ 200 := by rw [pow_succ]; ring
    rw [e]
    generalize (2 : ℝ) ^ 200 = z at *
    linarith

theorem range_of_near {ε a x : ℝ} (ha : Near ε a x) (hε : ε ≤ 1 / 20) (hi : x ≤ 2 ^ 200) : |a| ≤ 2 ^ 1000 := by
  have h2 := ha.hi
  have e0 := ha.1
  rw [abs_of_pos (ha.pos (by linarith))]
  refine (show a ≤ 2 ^ 201 from ?_).trans (pow_le_pow_right₀ (by norm_num) (by norm_num))
  have : (1 + ε) * x ≤ 2 * x := mul_le_mul_of_nonneg_right (by linarith) ha.2.1.le
  have e : (2 : ℝ) ^ 201 = 2 * 2 ^ 200 := by rw [pow_succ]; ring
  rw [e]
  generalize (2 : ℝ) ^ 200 = z at *
  linarith

theorem Spec.Ieee.dblN (h : Ieee M) {n : ℕ} (h0 : 0 < n) (hn : n < 2 ^ 53) : Ap 0 (M.dbl n) n := by
  have hd := isDouble_nat hn
  have h1 : (1 : ℝ) ≤ n := by exact_mod_cast h0
  have h2 : (n : ℝ) ≤ 2 ^ 53 := by exact_mod_cast hn.le
  have h3 : (n : ℝ) ≤ 2 ^ 200 := h2.trans (pow_le_pow_right₀ (by norm_num) (by norm_num))
  have e := (h.dbl n (by
    rw [abs_of_nonneg (by linarith)]
    exact h2.trans (pow_le_pow_right₀ (by norm_num) (by norm_num)))).exact hd
  rw [e]
  exact ⟨hd, near_self (by linarith), by norm_num, by linarith, h3⟩

theorem Spec.Ieee.dblR (h : Ieee M) {x : ℝ} (h0 : 1 / 2 ≤ x) (hx : x ≤ 2 ^ 200) : Ap (1 / 2 ^ 50) (M.dbl x) x :=
  have hn := near_self (show 0 < x by linarith)
  (h.dbl x (range_of_near hn (by norm_num) hx)).ap hn (by norm_num) h0 hx (by norm_num) (by norm_num)

theorem Spec.Ieee.mulA (h : Ieee M) {ε δ a b x y : ℝ} (ha : Ap ε a x) (hb : Ap δ b y) (η : ℝ)
    (lo : 1 / 2 ≤ x * y) (hi : x * y ≤ 2 ^ 200)
    (hη : 1 / 2 ^ 50 + (ε + δ + ε * δ) + 1 / 2 ^ 50 * (ε + δ + ε * δ) ≤ η) (hs : η ≤ 1 / 100) :
    Ap η (M.mul a b) (x * y) := by
  have hn := ha.near.mul hb.near
  have e1 := ha.small
  have e2 := hb.small
  have e3 := ha.near.1
  have e4 := hb.near.1
  have hε : ε + δ + ε * δ ≤ 1 / 20 := by nlinarith
  exact (h.mul a b ha.isD hb.isD (range_of_near hn hε hi)).ap hn hε lo hi hη hs

theorem Spec.Ieee.div2A (h : Ieee M) {ε a x : ℝ} (ha : Ap ε a x) (η : ℝ) (lo : 1 / 2 ≤ x / 2) (hη : 1 / 2 ^ 50 + ε + 1 / 2 ^ 50 * ε ≤ η)
    (hs : η ≤ 1 / 100) : Ap η (M.div a (M.dbl 2)) (x / 2) := by
  have e2 : M.dbl 2 = 2 := by
    have := (h.dbl 2 (by rw [abs_of_pos (by norm_num)]; exact le_self_pow₀ (by norm_num) (by norm_num))).exact
      (by simpa using isDouble_nat (n := 2) (by norm_num))
    exact this
  have hn := ha.near.div_const (c := 2) (by norm_num)
  have e1 := ha.small
  have hi : x / 2 ≤ 2 ^ 200 := by have := ha.hi; have := ha.lo; linarith
  have hd := h.div a 2 ha.isD (by simpa using isDouble_nat (n := 2) (by norm_num)) (by norm_num)
    (range_of_near hn (by linarith) hi)
  rw [e2]
  exact hd.ap hn (by linarith) lo hi hη hs

theorem Spec.Ieee.sqrtA (h : Ieee M) {ε a x : ℝ} (ha : Ap ε a x) (η : ℝ) (lo : 1 ≤ x) (hη : 1 / 2 ^ 50 + ε + 1 / 2 ^ 50 * ε ≤ η)
    (hs : η ≤ 1 / 100) : Ap η (M.sqrt a) √x := by
  have e1 := ha.small
  have h1 : (1 : ℝ) ≤ √x := Real.one_le_sqrt.2 lo
  have h2 : √x ≤ x := by
    have := Real.mul_self_sqrt (show 0 ≤ x by linarith)
    nlinarith
  exact (h.sqrt a ha.isD (ha.near.pos (by linarith)).le).ap (ha.near.sqrt (by linarith)) (by linarith) (by linarith)
    (h2.trans ha.hi) hη hs

theorem Spec.Ieee.multA (h : Ieee M) {ε a x : ℝ} (ha : Ap ε a x) {y : ℤ} (hy : 0 < y) :
    Near (1 / 2 ^ 100 + (1 / 2 ^ 100 + ε + 1 / 2 ^ 100 * ε) + 1 / 2 ^ 100 * (1 / 2 ^ 100 + ε + 1 / 2 ^ 100 * ε))
      (M.rrMul (M.rr y) a) (y * x) := by
  have ry : (0 : ℝ) < y := by exact_mod_cast hy
  have n1 : Near (1 / 2 ^ 100) (M.rr y) y := by
    refine ⟨by positivity, ry, ?_⟩
    have := h.rr y
    rwa [abs_of_pos ry, ← one_div_mul_eq_div] at this
  have n2 := n1.mul ha.near
  have e1 := ha.small
  have p1 : 0 < M.rr y * a := mul_pos (n1.pos (by norm_num)) (ha.near.pos (by linarith))
  have n3 : Near (1 / 2 ^ 100) (M.rrMul (M.rr y) a) (M.rr y * a) := by
    refine ⟨by positivity, p1, ?_⟩
    have := h.rrMul (M.rr y) a
    rwa [abs_of_pos p1, ← one_div_mul_eq_div] at this
  exact n3.trans n2

/-- A value rounded down is close to a number that it approximates. -/
theorem floor_close_near {ε a x : ℝ} (h : Near ε a x) (hε : ε ≤ 1 / 1000) : Close ⌊a⌋ x := by
  unfold Close
  have h1 := Int.floor_le a
  have h2 := Int.lt_floor_add_one a
  have h3 := abs_le.1 h.2.2
  have h4 : ε * x ≤ 1 / 1000 * x := mul_le_mul_of_nonneg_right hε h.2.1.le
  rw [abs_le]
  constructor <;> linarith

theorem ceil_close_near {ε a x : ℝ} (h : Near ε a x) (hε : ε ≤ 1 / 1000) : Close ⌈a⌉ x := by
  unfold Close
  have h1 := Int.le_ceil a
  have h2 := Int.ceil_lt_add_one a
  have h3 := abs_le.1 h.2.2
  have h4 : ε * x ≤ 1 / 1000 * x := mul_le_mul_of_nonneg_right hε h.2.1.le
  rw [abs_le]
  constructor <;> linarith

theorem log_near {ε a x : ℝ} (h : Near ε a x) (hε : ε ≤ 1 / 2) : |Real.log a - Real.log x| ≤ 2 * ε := by
  have hx := h.2.1
  have ha := h.pos (by linarith)
  have h0 := h.1
  have u1 : Real.log a - Real.log x ≤ ε := by
    rw [← Real.log_div ha.ne' hx.ne']
    have := Real.log_le_sub_one_of_pos (div_pos ha hx)
    have h2 : a / x ≤ 1 + ε := by rw [div_le_iff₀ hx]; exact h.hi
    linarith
  have u2 : Real.log x - Real.log a ≤ 2 * ε := by
    rw [← Real.log_div hx.ne' ha.ne']
    have := Real.log_le_sub_one_of_pos (div_pos hx ha)
    have h2 : x / a ≤ 1 + 2 * ε := by
      rw [div_le_iff₀ ha]
      have h3 := mul_le_mul_of_nonneg_left h.lo (show 0 ≤ 1 + 2 * ε by linarith)
      have h4 : 0 ≤ ε * (1 - 2 * ε) * x := mul_nonneg (mul_nonneg h0 (by linarith)) hx.le
      linarith
    linarith
  rw [abs_le]
  constructor <;> linarith

/-- The base 2 logarithm of a large integer. -/
theorem Spec.Ieee.log2BI_close (h : Ieee M) {x : ℤ} (h1 : 4 ≤ x) (h2 : x ≤ 2 ^ 148) :
    IsDouble (M.log2BI x) ∧ |M.log2BI x - Real.logb 2 x| ≤ 0.003 ∧ 1 ≤ M.log2BI x ∧ M.log2BI x ≤ 300 := by
  have rx : (4 : ℝ) ≤ x := by exact_mod_cast h1
  have rx' : (x : ℝ) ≤ 2 ^ 148 := by exact_mod_cast h2
  have g1 := Real.log_two_gt_d9
  have g2 := Real.log_two_lt_d9
  have lx1 : 2 * Real.log 2 ≤ Real.log x := by
    have : Real.log ((2 : ℝ) ^ 2) ≤ Real.log x := Real.log_le_log (by norm_num) (by linarith)
    rwa [Real.log_pow] at this
  have lx2 : Real.log x ≤ 148 * Real.log 2 := by
    have : Real.log x ≤ Real.log ((2 : ℝ) ^ 148) := Real.log_le_log (by linarith) rx'
    rwa [Real.log_pow] at this
  have n1 : Near (1 / 2 ^ 100) (M.rr x) x := by
    refine ⟨by positivity, by linarith, ?_⟩
    have := h.rr x
    rwa [abs_of_pos (show (0 : ℝ) < x by linarith), ← one_div_mul_eq_div] at this
  have d1 := log_near n1 (by norm_num)
  have ge1 : 2 ≤ M.rr x := by
    have := n1.lo
    have : (1 / 2 : ℝ) * x ≤ (1 - 1 / 2 ^ 100) * x := mul_le_mul_of_nonneg_right (by norm_num) (by linarith)
    linarith
  have ge2 : M.rr x ≤ 2 ^ 200 := by
    have := n1.hi
    have : (1 + 1 / 2 ^ 100) * (x : ℝ) ≤ 2 * x := mul_le_mul_of_nonneg_right (by norm_num) (by linarith)
    have h3 : (2 : ℝ) * 2 ^ 148 ≤ 2 ^ 200 := by norm_num
    linarith
  have d2 := h.rrLog (M.rr x) ge1 ge2
  obtain ⟨l, hl⟩ : ∃ l, l = M.rrLog (M.rr x) := ⟨_, rfl⟩
  rw [← hl] at d2
  have d1' := abs_le.1 d1
  have hd1 : (2 : ℝ) * (1 / 2 ^ 100) ≤ 1 / 10 ^ 12 := by norm_num
  have d3 : |l - Real.log x| ≤ 1 / 10 ^ 9 := by
    have t : Real.log (M.rr x) / 2 ^ 100 ≤ 1 / 10 ^ 12 := by
      rw [div_le_iff₀ (by positivity)]
      norm_num
      linarith
    have d2' := abs_le.1 d2
    rw [abs_le]
    constructor <;> linarith
  have d3' := abs_le.1 d3
  have c1 := h.dblR (x := 0.69314718056) (by norm_num) (le_trans (by norm_num) (one_le_pow₀ (by norm_num : (1:ℝ) ≤ 2)))
  obtain ⟨c, hc⟩ : ∃ c, c = M.dbl 0.69314718056 := ⟨_, rfl⟩
  rw [← hc] at c1
  have cl : 0.693147180 ≤ c := by
    have := c1.near.lo
    norm_num at this ⊢
    linarith
  have cu : c ≤ 0.693147181 := by
    have := c1.near.hi
    norm_num at this ⊢
    linarith
  have c0 : 0 < c := by linarith
  have l0 : 0 < l := by linarith
  have lq : l / c ≤ 149 := by rw [div_le_iff₀ c0]; linarith
  have lq' : 1.9 ≤ l / c := by rw [le_div_iff₀ c0]; linarith
  have d4 := h.rrDiv l c c0.ne'
  rw [abs_of_pos (div_pos l0 c0)] at d4
  obtain ⟨w, hw⟩ : ∃ w, w = M.rrDiv l c := ⟨_, rfl⟩
  rw [← hw] at d4
  have d5 : |w - l / c| ≤ 1 / 10 ^ 9 := d4.trans (by rw [div_le_iff₀ (by positivity)]; norm_num; linarith)
  have d5' := abs_le.1 d5
  have w1 : 1.8 ≤ w := by linarith
  have w2 : w ≤ 150 := by linarith
  have w3 : w ≤ 2 ^ 1000 := w2.trans (le_trans (by norm_num) (pow_le_pow_right₀ (by norm_num : (1 : ℝ) ≤ 2) (show 8 ≤ 1000 by norm_num)))
  have d6 := h.dbl w (by rw [abs_of_nonneg (by linarith)]; exact w3)
  have d7 := d6.rel (by linarith) w3
  have d8 : |M.dbl w - w| ≤ 1 / 10 ^ 9 := d7.trans (by rw [div_le_iff₀ (by positivity)]; norm_num; linarith)
  have d8' := abs_le.1 d8
  have hq : |l / c - Real.logb 2 x| ≤ 0.001 := by
    unfold Real.logb
    have k0 : 0 < Real.log 2 := by linarith
    have e : l / c - Real.log x / Real.log 2 = (l * Real.log 2 - Real.log x * c) / (c * Real.log 2) := by
      field_simp
    rw [e, abs_div, abs_of_pos (mul_pos c0 k0), div_le_iff₀ (mul_pos c0 k0)]
    have e2 : l * Real.log 2 - Real.log x * c = (l - Real.log x) * Real.log 2 + Real.log x * (Real.log 2 - c) := by ring
    rw [e2]
    have t1 : |(l - Real.log x) * Real.log 2| ≤ 1 / 10 ^ 9 * 1 := by
      rw [abs_mul]
      exact mul_le_mul d3 (by rw [abs_of_pos k0]; linarith) (abs_nonneg _) (by positivity)
    have t2 : |Real.log x * (Real.log 2 - c)| ≤ 148 * (2 / 10 ^ 9) := by
      rw [abs_mul]
      refine mul_le_mul ?_ ?_ (abs_nonneg _) (by norm_num)
      · rw [abs_of_pos (by linarith)]; linarith
      · rw [abs_le]; constructor <;> norm_num <;> linarith
    refine (abs_add_le _ _).trans ((add_le_add t1 t2).trans ?_)
    have : (0.6 : ℝ) * 0.6 ≤ c * Real.log 2 := mul_le_mul (by linarith) (by linarith) (by norm_num) c0.le
    norm_num at this ⊢
    linarith
  have hq' := abs_le.1 hq
  have e0 : M.log2BI x = M.dbl w := by
    unfold Machine.log2BI
    rw [← hl, ← hc, ← hw]
  rw [e0]
  refine ⟨d6.1, ?_, by linarith, by linarith⟩
  rw [abs_le]
  constructor <;> linarith

end Verif
