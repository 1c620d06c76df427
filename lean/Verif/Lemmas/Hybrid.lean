/-
The distance between two products of distributions, factor by factor; for C81.
-/
import Mathlib.Algebra.BigOperators.Fin
import Mathlib.Data.Fintype.BigOperators
import Mathlib.Algebra.Order.BigOperators.Ring.Finset
import Mathlib.Algebra.Order.Ring.Abs
import Mathlib.Tactic.Ring
import Mathlib.Tactic.Linarith

namespace Verif

theorem sum_cons {α : Type} [Fintype α] (n : ℕ) (f : (Fin (n + 1) → α) → ℤ) :
    ∑ z, f z = ∑ x : α, ∑ z : Fin n → α, f (Fin.cons x z) := by
  rw [← Fintype.sum_prod_type' (f := fun (x : α) (z : Fin n → α) => f (Fin.cons x z))]
  exact (Fintype.sum_equiv (Fin.consEquiv (fun _ => α)) _ _ (fun _ => rfl)).symm

theorem sum_prod_pow {α : Type} [Fintype α] (T : ℤ) : ∀ (n : ℕ) (a : Fin n → α → ℤ),
    (∀ i, ∑ x, a i x = T) → ∑ z : Fin n → α, ∏ i, a i (z i) = T ^ n := by
  intro n
  induction n with
  | zero => intro a _; simp
  | succ n ih =>
    intro a ha
    rw [sum_cons]
    simp only [Fin.prod_univ_succ, Fin.cons_zero, Fin.cons_succ]
    rw [Finset.sum_congr rfl fun x _ => (Finset.mul_sum _ _ _).symm, ← Finset.sum_mul, ha 0,
      ih (fun i => a i.succ) fun i => ha _, pow_succ']

theorem hybrid {α : Type} [Fintype α] (T D : ℤ) (hT : 0 ≤ T) : ∀ (n : ℕ) (a b : Fin n → α → ℤ),
    (∀ i x, 0 ≤ a i x) → (∀ i x, 0 ≤ b i x) → (∀ i, ∑ x, a i x = T) → (∀ i, ∑ x, b i x = T) →
    (∀ i, ∑ x, |a i x - b i x| ≤ D) →
    ∑ z : Fin n → α, |∏ i, a i (z i) - ∏ i, b i (z i)| ≤ n * D * T ^ (n - 1) := by
  intro n
  induction n with
  | zero => intro a b _ _ _ _ _; simp
  | succ n ih =>
    intro a b ha0 hb0 ha hb hD
    rw [sum_cons]
    simp only [Fin.prod_univ_succ, Fin.cons_zero, Fin.cons_succ]
    have key : ∀ x (z : Fin n → α), |a 0 x * ∏ i : Fin n, a i.succ (z i) - b 0 x * ∏ i : Fin n, b i.succ (z i)| ≤
        a 0 x * |∏ i : Fin n, a i.succ (z i) - ∏ i : Fin n, b i.succ (z i)| +
          |a 0 x - b 0 x| * ∏ i : Fin n, b i.succ (z i) := by
      intro x z
      have e : a 0 x * ∏ i : Fin n, a i.succ (z i) - b 0 x * ∏ i : Fin n, b i.succ (z i) =
          a 0 x * (∏ i : Fin n, a i.succ (z i) - ∏ i : Fin n, b i.succ (z i)) +
          (a 0 x - b 0 x) * ∏ i : Fin n, b i.succ (z i) := by ring
      rw [e]
      refine (abs_add_le _ _).trans ?_
      rw [abs_mul, abs_mul, abs_of_nonneg (ha0 0 x),
        abs_of_nonneg (Finset.prod_nonneg fun i _ => hb0 i.succ (z i))]
    refine (Finset.sum_le_sum fun x _ => Finset.sum_le_sum fun z _ => key x z).trans ?_
    simp only [Finset.sum_add_distrib]
    rw [Finset.sum_congr rfl fun x _ => (Finset.mul_sum _ _ _).symm, ← Finset.sum_mul, ha 0]
    have h2 : ∑ x, ∑ z : Fin n → α, |a 0 x - b 0 x| * ∏ i : Fin n, b i.succ (z i) =
        (∑ x, |a 0 x - b 0 x|) * T ^ n := by
      rw [Finset.sum_congr rfl fun x _ => (Finset.mul_sum _ _ _).symm, ← Finset.sum_mul,
        sum_prod_pow T n (fun i => b i.succ) fun i => hb _]
    rw [h2]
    have h3 := ih (fun i => a i.succ) (fun i => b i.succ) (fun i => ha0 _) (fun i => hb0 _) (fun i => ha _)
      (fun i => hb _) (fun i => hD _)
    have h4 := mul_le_mul_of_nonneg_left h3 hT
    have h5 := mul_le_mul_of_nonneg_right (hD 0) (pow_nonneg hT n)
    have h6 : T * (n * D * T ^ (n - 1)) = n * D * T ^ n := by
      cases n with
      | zero => simp
      | succ n => rw [Nat.add_sub_cancel]; ring
    rw [h6] at h4
    rw [Nat.add_sub_cancel]
    push_cast
    linarith

/-- the same for a table of factors -/
theorem hybrid_table {α : Type} [Fintype α] (T D : ℤ) (hT : 0 ≤ T) (n m : ℕ) (a b : Fin n → Fin (m + 1) → α → ℤ)
    (ha0 : ∀ i j x, 0 ≤ a i j x) (hb0 : ∀ i j x, 0 ≤ b i j x) (ha : ∀ i j, ∑ x, a i j x = T)
    (hb : ∀ i j, ∑ x, b i j x = T) (hD : ∀ i j, ∑ x, |a i j x - b i j x| ≤ D) :
    ∑ z : Fin n → Fin (m + 1) → α, |∏ i, ∏ j, a i j (z i j) - ∏ i, ∏ j, b i j (z i j)| ≤
      n * ((m + 1 : ℕ) * D * T ^ m) * (T ^ (m + 1)) ^ (n - 1) := by
  have h1 : ∀ i, ∑ z : Fin (m + 1) → α, |∏ j, a i j (z j) - ∏ j, b i j (z j)| ≤ (m + 1 : ℕ) * D * T ^ m := by
    intro i
    have := hybrid T D hT (m + 1) (a i) (b i) (ha0 i) (hb0 i) (ha i) (hb i) (hD i)
    rwa [Nat.add_sub_cancel] at this
  have h2 := fun i => sum_prod_pow T _ _ (ha i)
  have h3 := fun i => sum_prod_pow T _ _ (hb i)
  generalize ((m + 1 : ℕ) : ℤ) * D * T ^ m = D' at *
  have hT' : 0 ≤ T ^ (m + 1) := pow_nonneg hT _
  generalize T ^ (m + 1) = T' at *
  exact hybrid (α := Fin (m + 1) → α) T' D' hT' n (fun i z => ∏ j, a i j (z j)) (fun i z => ∏ j, b i j (z j))
    (fun i z => Finset.prod_nonneg fun j _ => ha0 _ _ _) (fun i z => Finset.prod_nonneg fun j _ => hb0 _ _ _) h2 h3 h1

end Verif
