import Verif.Spec.RegevProofs
import Verif.Lemmas.RegevTotal
import Mathlib.Algebra.Polynomial.Roots
import Mathlib.NumberTheory.LegendreSymbol.Basic

namespace Verif
open Spec Regev Polynomial
open scoped BigOperators

section
variable {q : ℕ} [Fact q.Prime]

theorem mul_c0 (a b : Elt (ZMod q) 2) : (a * b).c 0 = a.c 0 * b.c 0 - a.c 1 * b.c 1 := by
  rw [Elt.mul_c]
  simp [Fin.sum_univ_two]
  ring

theorem mul_c1 (a b : Elt (ZMod q) 2) : (a * b).c 1 = a.c 0 * b.c 1 + a.c 1 * b.c 0 := by
  rw [Elt.mul_c]
  simp [Fin.sum_univ_two]

/-- The value at `i` (a square root of -1). -/
noncomputable def evalAt (i : ZMod q) (hi : i * i = -1) : Elt (ZMod q) 2 →+* ZMod q where
  toFun a := a.c 0 + i * a.c 1
  map_one' := by simp [one_c0, one_c1]
  map_zero' := by simp
  map_add' a b := by simp only [Elt.add_c]; ring
  map_mul' a b := by
    rw [mul_c0, mul_c1]
    linear_combination (- a.c 1 * b.c 1) * hi

theorem evalAt_apply (i : ZMod q) (hi : i * i = -1) (a : Elt (ZMod q) 2) : evalAt i hi a = a.c 0 + i * a.c 1 := rfl

instance : Finite (Elt (ZMod q) 2) := by
  have : NeZero q := ⟨(Fact.out : q.Prime).ne_zero⟩
  refine Finite.of_injective (fun a : Elt (ZMod q) 2 => a.c) ?_
  intro a b h
  exact Elt.ext h

theorem card_elt : Nat.card (Elt (ZMod q) 2) = q ^ 2 := by
  have : NeZero q := ⟨(Fact.out : q.Prime).ne_zero⟩
  have e : Elt (ZMod q) 2 ≃ (Fin 2 → ZMod q) := ⟨fun a => a.c, fun f => ⟨f⟩, fun _ => rfl, fun _ => rfl⟩
  rw [Nat.card_congr e]
  simp [ZMod.card]

theorem eval_batch (i : ZMod q) (hi : i * i = -1) (m : ℕ) (ξ : Elt (ZMod q) 2) (d : ℕ → Elt (ZMod q) 2) :
    evalAt i hi (batch m ξ d) =
      (∑ j ∈ Finset.range m, C (evalAt i hi (d j)) * X ^ j : (ZMod q)[X]).eval (evalAt i hi ξ) := by
  unfold batch
  rw [map_sum, eval_finset_sum]
  refine Finset.sum_congr rfl fun j _ => ?_
  rw [map_mul, map_pow, eval_C_mul, eval_X_pow, mul_comm]

theorem poly_coeff {R : Type} [CommRing R] (m : ℕ) (f : ℕ → R) (k : ℕ) (hk : k < m) :
    (∑ j ∈ Finset.range m, C (f j) * X ^ j : R[X]).coeff k = f k := by
  rw [finset_sum_coeff, Finset.sum_eq_single k]
  · simp
  · intro b _ hb
    rw [coeff_C_mul, coeff_X_pow, if_neg (Ne.symm hb), mul_zero]
  · intro h
    exact absurd (Finset.mem_range.2 hk) h

theorem poly_natDegree {R : Type} [CommRing R] (m : ℕ) (f : ℕ → R) :
    (∑ j ∈ Finset.range m, C (f j) * X ^ j : R[X]).natDegree ≤ m - 1 := by
  refine natDegree_sum_le_of_forall_le _ _ fun j hj => ?_
  have := Finset.mem_range.1 hj
  exact (natDegree_C_mul_X_pow_le _ _).trans (by omega)

/-- One of the two values is not zero. -/
theorem batch_card_of_eval (i : ZMod q) (hi : i * i = -1) (m : ℕ) (d : ℕ → Elt (ZMod q) 2)
    (h : ∃ j < m, evalAt i hi (d j) ≠ 0) :
    Nat.card {ξ : Elt (ZMod q) 2 // batch m ξ d = 0} ≤ (m - 1) * q := by
  have : NeZero q := ⟨(Fact.out : q.Prime).ne_zero⟩
  obtain ⟨p, hp⟩ : ∃ p : (ZMod q)[X], p = ∑ j ∈ Finset.range m, C (evalAt i hi (d j)) * X ^ j := ⟨_, rfl⟩
  have hp0 : p ≠ 0 := by
    obtain ⟨j, hj, hd⟩ := h
    intro h0
    apply hd
    rw [← poly_coeff m (fun j => evalAt i hi (d j)) j hj, ← hp, h0, coeff_zero]
  have hcard : p.roots.toFinset.card ≤ m - 1 := by
    refine (Multiset.toFinset_card_le _).trans ((card_roots' p).trans ?_)
    rw [hp]
    exact poly_natDegree _ _
  have hroot : ∀ ξ : Elt (ZMod q) 2, batch m ξ d = 0 → evalAt i hi ξ ∈ p.roots.toFinset := by
    intro ξ hξ
    rw [Multiset.mem_toFinset, mem_roots hp0, IsRoot, hp, ← eval_batch, hξ, map_zero]
  have hle := Nat.card_le_card_of_injective
    (fun ξ : {ξ : Elt (ZMod q) 2 // batch m ξ d = 0} =>
      ((⟨evalAt i hi ξ.1, hroot ξ.1 ξ.2⟩ : p.roots.toFinset), ξ.1.c 1)) (by
      rintro ⟨a, ha⟩ ⟨b, hb⟩ hab
      obtain ⟨h1, h2⟩ := Prod.mk.inj hab
      have h1 := congrArg Subtype.val h1
      simp only [evalAt_apply] at h1 h2
      rw [h2, add_left_inj] at h1
      apply Subtype.ext
      apply Elt.ext
      funext k
      have hk : k = 0 ∨ k = 1 := by omega
      rcases hk with rfl | rfl
      · exact h1
      · exact h2)
  rw [Nat.card_prod, Nat.card_eq_fintype_card (α := p.roots.toFinset), Fintype.card_coe, Nat.card_zmod] at hle
  exact hle.trans (Nat.mul_le_mul_right _ hcard)

theorem eq_zero_of_evals (hq : q ≠ 2) (i : ZMod q) (hi : i * i = -1) (hi' : -i * -i = -1) (a : Elt (ZMod q) 2)
    (h1 : evalAt i hi a = 0) (h2 : evalAt (-i) hi' a = 0) : a = 0 := by
  have h2q : (2 : ZMod q) ≠ 0 := by
    have := (Fact.out : q.Prime)
    intro h
    have h : ((2 : ℕ) : ZMod q) = 0 := by exact_mod_cast h
    rw [ZMod.natCast_eq_zero_iff] at h
    exact hq ((Nat.prime_dvd_prime_iff_eq this Nat.prime_two).1 h)
  have hi0 : i ≠ 0 := by
    rintro rfl
    simp at hi
  rw [evalAt_apply] at h1 h2
  have e0 : a.c 0 = 0 := by
    have : (2 : ZMod q) * a.c 0 = 0 := by linear_combination h1 + h2
    exact (mul_eq_zero.1 this).resolve_left h2q
  have e1 : a.c 1 = 0 := by
    rw [e0, zero_add] at h1
    exact (mul_eq_zero.1 h1).resolve_left hi0
  apply Elt.ext
  funext k
  have hk : k = 0 ∨ k = 1 := by omega
  rcases hk with rfl | rfl
  · exact e0
  · exact e1

/-- Modulo a prime where -1 is not a square, the ring is a field. -/
theorem elt_noZeroDivisors (h : ¬ IsSquare (-1 : ZMod q)) (a b : Elt (ZMod q) 2) (hab : a * b = 0) :
    a = 0 ∨ b = 0 := by
  by_contra hc
  push Not at hc
  obtain ⟨ha, hb⟩ := hc
  have h0 : (a * b).c 0 = 0 := by rw [hab]; rfl
  have h1 : (a * b).c 1 = 0 := by rw [hab]; rfl
  rw [mul_c0] at h0
  rw [mul_c1] at h1
  have hN : a.c 0 * a.c 0 + a.c 1 * a.c 1 ≠ 0 := by
    intro hN
    by_cases hz : a.c 1 = 0
    · apply ha
      rw [hz] at hN
      apply Elt.ext
      funext k
      have hk : k = 0 ∨ k = 1 := by omega
      rcases hk with rfl | rfl
      · simpa using hN
      · exact hz
    · apply h
      refine ⟨a.c 0 / a.c 1, ?_⟩
      field_simp
      linear_combination -hN
  apply hb
  apply Elt.ext
  funext k
  have hk : k = 0 ∨ k = 1 := by omega
  rcases hk with rfl | rfl
  · have : (a.c 0 * a.c 0 + a.c 1 * a.c 1) * b.c 0 = 0 := by linear_combination a.c 0 * h0 + a.c 1 * h1
    exact (mul_eq_zero.1 this).resolve_left hN
  · have : (a.c 0 * a.c 0 + a.c 1 * a.c 1) * b.c 1 = 0 := by linear_combination a.c 0 * h1 - a.c 1 * h0
    exact (mul_eq_zero.1 this).resolve_left hN

theorem batch_card (hq : q ≠ 2) (m : ℕ) (d : ℕ → Elt (ZMod q) 2) (h : ∃ j < m, d j ≠ 0) :
    Nat.card {ξ : Elt (ZMod q) 2 // batch m ξ d = 0} ≤ (m - 1) * q := by
  by_cases hs : IsSquare (-1 : ZMod q)
  · obtain ⟨i, hi⟩ := hs
    have hi := hi.symm
    have hi' : -i * -i = -1 := by rw [neg_mul_neg]; exact hi
    obtain ⟨j, hj, hd⟩ := h
    by_cases h1 : evalAt i hi (d j) = 0
    · exact batch_card_of_eval (-i) hi' m d ⟨j, hj, fun h2 => hd (eq_zero_of_evals hq i hi hi' _ h1 h2)⟩
    · exact batch_card_of_eval i hi m d ⟨j, hj, h1⟩
  · have hnz : NoZeroDivisors (Elt (ZMod q) 2) := ⟨fun {a b} => elt_noZeroDivisors hs a b⟩
    have hnt : Nontrivial (Elt (ZMod q) 2) := ⟨0, 1, fun h => by
      have := congrArg (fun a : Elt (ZMod q) 2 => a.c 0) h
      simp [one_c0] at this⟩
    have hdom : IsDomain (Elt (ZMod q) 2) := NoZeroDivisors.to_isDomain _
    obtain ⟨p, hp⟩ : ∃ p : (Elt (ZMod q) 2)[X], p = ∑ j ∈ Finset.range m, C (d j) * X ^ j := ⟨_, rfl⟩
    have hp0 : p ≠ 0 := by
      obtain ⟨j, hj, hd⟩ := h
      intro h0
      apply hd
      rw [← poly_coeff m d j hj, ← hp, h0, coeff_zero]
    have hroot : ∀ ξ : Elt (ZMod q) 2, batch m ξ d = 0 → ξ ∈ p.roots := by
      intro ξ hξ
      rw [mem_roots hp0, IsRoot, hp, eval_finset_sum, ← hξ]
      refine Finset.sum_congr rfl fun j _ => ?_
      rw [eval_C_mul, eval_X_pow, mul_comm]
    classical
    have hle := Nat.card_le_card_of_injective
      (fun ξ : {ξ : Elt (ZMod q) 2 // batch m ξ d = 0} =>
        (⟨ξ.1, Multiset.mem_toFinset.2 (hroot ξ.1 ξ.2)⟩ : p.roots.toFinset)) (by
        rintro ⟨a, ha⟩ ⟨b, hb⟩ hab
        simp only [Subtype.mk.injEq] at hab
        exact Subtype.ext hab)
    rw [Nat.card_eq_fintype_card (α := p.roots.toFinset), Fintype.card_coe] at hle
    have hcard : p.roots.toFinset.card ≤ m - 1 := by
      refine (Multiset.toFinset_card_le _).trans ((card_roots' p).trans ?_)
      rw [hp]
      exact poly_natDegree _ _
    have := (Fact.out : q.Prime).one_lt
    exact (hle.trans hcard).trans (Nat.le_mul_of_pos_right _ (by omega))

end
end Verif
