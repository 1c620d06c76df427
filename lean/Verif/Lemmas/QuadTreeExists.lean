/- The same for quadratic proofs. -/
import Verif.Lemmas.QuadSound
import Mathlib.Algebra.Module.LinearMap.Prod
import Mathlib.LinearAlgebra.Pi

namespace Verif
open Spec

section
variable {F G : Type} [Field F] [AddCommGroup G] [Module F G]

/-- One coordinate of interpolated coefficients. -/
theorem interp_coord {M : Type} [AddCommGroup M] [Module F M] (f : M →ₗ[F] F) {x y z : F} (hxy : x ≠ y) (hxz : x ≠ z)
    (hyz : y ≠ z) (u v w : M) (q0 q1 q2 : F) (hu : f u = q0 + x * q1 + x ^ 2 * q2)
    (hv : f v = q0 + y * q1 + y ^ 2 * q2) (hw : f w = q0 + z * q1 + z ^ 2 * q2) :
    f (interp x y z u v w).1 = q0 ∧ f (interp x y z u v w).2.1 = q1 ∧ f (interp x y z u v w).2.2 = q2 := by
  have h := interp_map f x y z u v w
  have h' := interp_unique hxy hxz hyz q0 q1 q2
  simp only [smul_eq_mul] at h'
  rw [hu, hv, hw, h'] at h
  simp only [Prod.mk.injEq] at h
  exact ⟨h.1.symm, h.2.1.symm, h.2.2.symm⟩

/-- The coordinates of `Coeffs`. -/
def co1 : Coeffs F →ₗ[F] F := LinearMap.fst F F (F × (ℕ → F) × (ℕ → F))
@[inherit_doc co1] def co2 : Coeffs F →ₗ[F] F :=
  LinearMap.fst F F ((ℕ → F) × (ℕ → F)) ∘ₗ LinearMap.snd F F (F × (ℕ → F) × (ℕ → F))
@[inherit_doc co1] def co3 (j : ℕ) : Coeffs F →ₗ[F] F :=
  LinearMap.proj j ∘ₗ LinearMap.fst F (ℕ → F) (ℕ → F) ∘ₗ LinearMap.snd F F ((ℕ → F) × (ℕ → F)) ∘ₗ
    LinearMap.snd F F (F × (ℕ → F) × (ℕ → F))
@[inherit_doc co1] def co4 (j : ℕ) : Coeffs F →ₗ[F] F :=
  LinearMap.proj j ∘ₗ LinearMap.snd F (ℕ → F) (ℕ → F) ∘ₗ LinearMap.snd F F ((ℕ → F) × (ℕ → F)) ∘ₗ
    LinearMap.snd F F (F × (ℕ → F) × (ℕ → F))

theorem co1_apply (o : Coeffs F) : co1 o = o.1 := rfl
theorem co2_apply (o : Coeffs F) : co2 o = o.2.1 := rfl
theorem co3_apply (j : ℕ) (o : Coeffs F) : co3 j o = o.2.2.1 j := rfl
theorem co4_apply (j : ℕ) (o : Coeffs F) : co4 j o = o.2.2.2 j := rfl

/-- `o` has the given coordinates, for `n` generators. -/
def Agrees (n : ℕ) (o : Coeffs F) (r c : F) (a b : ℕ → F) : Prop :=
  o.1 = r ∧ o.2.1 = c ∧ ∀ j, j < n → o.2.2.1 j = a j ∧ o.2.2.2 j = b j

theorem trivial_of_coord (n : ℕ) (o : Coeffs F) (h1 : co1 o = 0) (h2 : co2 o = 0)
    (h3 : ∀ j, j < n → co3 j o = 0) (h4 : ∀ j, j < n → co4 j o = 0) : o.Trivial n :=
  ⟨h1, h2, fun j hj => ⟨h3 j hj, h4 j hj⟩⟩

theorem unfold_trivial {n : ℕ} {x : F} {o : Coeffs F} (h : o.Trivial n) : (o.unfold n x).Trivial (n + n) := by
  obtain ⟨h1, h2, h3⟩ := h
  refine ⟨h1, h2, fun j hj => ?_⟩
  by_cases hjn : j < n
  · simpa [Coeffs.unfold, hjn] using h3 j hjn
  · have := h3 (j - n) (by omega)
    simp [Coeffs.unfold, hjn, this.1, this.2]

theorem quadGood_exists (base Fg : G) (y : Fin 5 → F) (hy : Function.Injective y) (hy0 : ∀ i, y i ≠ 0) :
    ∀ (k : ℕ) (Q : G) (g h : ℕ → G) (r : F) (a b : ℕ → F),
    Q = r • base + (∑ j ∈ Finset.range (2 ^ k), a j • g j) + (∑ j ∈ Finset.range (2 ^ k), b j • h j)
      + (∑ j ∈ Finset.range (2 ^ k), a j * b j) • Fg →
    ∃ t : QuadTree F G, QuadGood base Fg t k Q g h ∧
      Agrees (2 ^ k) (t.extract k) r (∑ j ∈ Finset.range (2 ^ k), a j * b j) a b ∧
      ∀ ρ ∈ t.relations k, ρ.Trivial (2 ^ k) := by
  intro k
  induction k with
  | zero =>
    intro Q g h r a b hQ
    simp only [pow_zero, Finset.range_one, Finset.sum_singleton] at hQ
    obtain ⟨u, hu⟩ : ∃ u : Coeffs F, u = (r, a 0 * b 0, fun _ => a 0, fun _ => b 0) := ⟨_, rfl⟩
    have hi := interp_unique (hy.ne (by decide : (0 : Fin 5) ≠ 1)) (hy.ne (by decide : (0 : Fin 5) ≠ 2))
      (hy.ne (by decide : (1 : Fin 5) ≠ 2)) u 0 0
    simp only [smul_zero, add_zero] at hi
    refine ⟨.leaf 0 0 y (fun _ => a 0) (fun _ => b 0) (fun _ => r), ⟨rfl, hy, ?_⟩, ?_, ?_⟩
    · intro i
      rw [hQ]
      simp only [smul_zero, add_zero]
    · simp only [QuadTree.extract, ← hu, hi]
      rw [hu]
      refine ⟨rfl, by simp, ?_⟩
      intro j hj
      obtain rfl : j = 0 := by simpa using hj
      exact ⟨rfl, rfl⟩
    · intro ρ hρ
      simp only [QuadTree.relations, ← hu, hi, smul_zero, add_zero, sub_self, List.mem_cons, List.not_mem_nil,
        or_false, or_self] at hρ
      rw [hρ]
      exact ⟨rfl, rfl, fun j _ => ⟨rfl, rfl⟩⟩
  | succ m ih =>
    intro Q g h r a b hQ
    have h2 : 2 ^ (m + 1) = 2 ^ m + 2 ^ m := by rw [pow_succ]; ring
    obtain ⟨n, hn⟩ : ∃ n, n = 2 ^ m := ⟨_, rfl⟩
    rw [h2, ← hn, Finset.sum_range_add, Finset.sum_range_add, Finset.sum_range_add] at hQ
    obtain ⟨x, hx⟩ : ∃ x : Fin 4 → F, x = fun i => y i.castSucc := ⟨_, rfl⟩
    have hxi : Function.Injective x := by
      intro i j hij
      rw [hx] at hij
      exact Fin.castSucc_injective _ (hy hij)
    have hx0 : ∀ i, x i ≠ 0 := fun i => by rw [hx]; exact hy0 _
    obtain ⟨L, hL⟩ : ∃ L : G, L = (∑ j ∈ Finset.range n, a j • g (n + j)) + (∑ j ∈ Finset.range n, b (n + j) • h j)
      + (∑ j ∈ Finset.range n, a j * b (n + j)) • Fg := ⟨_, rfl⟩
    obtain ⟨R, hR⟩ : ∃ R : G, R = (∑ j ∈ Finset.range n, a (n + j) • g j) + (∑ j ∈ Finset.range n, b j • h (n + j))
      + (∑ j ∈ Finset.range n, a (n + j) * b j) • Fg := ⟨_, rfl⟩
    have hc : ∀ i, ∑ j ∈ Finset.range n, (a j + (x i)⁻¹ * a (n + j)) * (b j + x i * b (n + j))
        = (∑ j ∈ Finset.range n, a j * b j + ∑ j ∈ Finset.range n, a (n + j) * b (n + j))
          + x i * (∑ j ∈ Finset.range n, a j * b (n + j)) + (x i)⁻¹ * ∑ j ∈ Finset.range n, a (n + j) * b j := by
      intro i
      rw [Finset.mul_sum, Finset.mul_sum, ← Finset.sum_add_distrib, ← Finset.sum_add_distrib, ← Finset.sum_add_distrib]
      apply Finset.sum_congr rfl
      intro j _
      have := hx0 i
      field_simp
      ring
    have step : ∀ i, ∃ t : QuadTree F G, QuadGood base Fg t m (Q + x i • L + (x i)⁻¹ • R)
        (fun j => g j + x i • g (2 ^ m + j)) (fun j => h j + (x i)⁻¹ • h (2 ^ m + j)) ∧
        Agrees (2 ^ m) (t.extract m) r
          ((∑ j ∈ Finset.range n, a j * b j + ∑ j ∈ Finset.range n, a (n + j) * b (n + j))
          + x i * (∑ j ∈ Finset.range n, a j * b (n + j)) + (x i)⁻¹ * ∑ j ∈ Finset.range n, a (n + j) * b j)
          (fun j => a j + (x i)⁻¹ * a (n + j)) (fun j => b j + x i * b (n + j)) ∧
        ∀ ρ ∈ t.relations m, ρ.Trivial (2 ^ m) := by
      intro i
      have := ih (Q + x i • L + (x i)⁻¹ • R) (fun j => g j + x i • g (2 ^ m + j))
        (fun j => h j + (x i)⁻¹ • h (2 ^ m + j)) r (fun j => a j + (x i)⁻¹ * a (n + j)) (fun j => b j + x i * b (n + j)) (by
          simp only [← hn]
          rw [hc i, hQ, hL, hR]
          have s1 : ∑ j ∈ Finset.range n, (a j + (x i)⁻¹ * a (n + j)) • (g j + x i • g (n + j))
              = (∑ j ∈ Finset.range n, a j • g j + ∑ j ∈ Finset.range n, a (n + j) • g (n + j))
                + x i • (∑ j ∈ Finset.range n, a j • g (n + j)) + (x i)⁻¹ • ∑ j ∈ Finset.range n, a (n + j) • g j := by
            rw [Finset.smul_sum, Finset.smul_sum, ← Finset.sum_add_distrib, ← Finset.sum_add_distrib,
              ← Finset.sum_add_distrib]
            apply Finset.sum_congr rfl
            intro j _
            have e : (x i)⁻¹ * x i = 1 := inv_mul_cancel₀ (hx0 i)
            have : ((x i)⁻¹ * a (n + j)) • x i • g (n + j) = a (n + j) • g (n + j) := by
              rw [smul_smul, mul_right_comm, e, one_mul]
            rw [smul_add, add_smul, add_smul, this]
            module
          have s2 : ∑ j ∈ Finset.range n, (b j + x i * b (n + j)) • (h j + (x i)⁻¹ • h (n + j))
              = (∑ j ∈ Finset.range n, b j • h j + ∑ j ∈ Finset.range n, b (n + j) • h (n + j))
                + x i • (∑ j ∈ Finset.range n, b (n + j) • h j) + (x i)⁻¹ • ∑ j ∈ Finset.range n, b j • h (n + j) := by
            rw [Finset.smul_sum, Finset.smul_sum, ← Finset.sum_add_distrib, ← Finset.sum_add_distrib,
              ← Finset.sum_add_distrib]
            apply Finset.sum_congr rfl
            intro j _
            have e : x i * (x i)⁻¹ = 1 := mul_inv_cancel₀ (hx0 i)
            have : (x i * b (n + j)) • (x i)⁻¹ • h (n + j) = b (n + j) • h (n + j) := by
              rw [smul_smul, mul_right_comm, e, one_mul]
            rw [smul_add, add_smul, add_smul, this]
            module
          rw [s1, s2]
          module)
      simp only [← hn] at this ⊢
      rw [hc i] at this
      exact this
    choose t hg ha hr using step
    obtain ⟨u, hu⟩ : ∃ u : Fin 4 → Coeffs F, u = fun i => ((t i).extract m).unfold (2 ^ m) (x i) := ⟨_, rfl⟩
    have hui : ∀ i, ((t i).extract m).unfold (2 ^ m) (x i) = u i := by intro i; rw [hu]
    obtain ⟨p, hp⟩ : ∃ p, p = interp (x 0) (x 1) (x 2) (x 0 • u 0) (x 1 • u 1) (x 2 • u 2) := ⟨_, rfl⟩
    have n01 := hxi.ne (by decide : (0 : Fin 4) ≠ 1)
    have n02 := hxi.ne (by decide : (0 : Fin 4) ≠ 2)
    have n12 := hxi.ne (by decide : (1 : Fin 4) ≠ 2)
    -- a coordinate of the answers is a polynomial in the challenge
    have coord : ∀ (f : Coeffs F →ₗ[F] F) (q0 q1 q2 : F),
        (∀ i, x i * f (u i) = q0 + x i * q1 + x i ^ 2 * q2) →
        f p.2.1 = q1 ∧ f (p.2.1 + x 3 • p.2.2 + (x 3)⁻¹ • p.1 - u 3) = 0 := by
      intro f q0 q1 q2 hf
      have hf' : ∀ i, f (x i • u i) = q0 + x i * q1 + x i ^ 2 * q2 := by
        intro i; rw [map_smul, smul_eq_mul, hf]
      obtain ⟨c0, c1, c2⟩ := interp_coord f n01 n02 n12 _ _ _ q0 q1 q2 (hf' 0) (hf' 1) (hf' 2)
      rw [← hp] at c0 c1 c2
      refine ⟨c1, ?_⟩
      rw [map_sub, map_add, map_add, map_smul, map_smul, c0, c1, c2, smul_eq_mul, smul_eq_mul]
      have h3 := hf 3
      have z := hx0 3
      have : x 3 * (q1 + x 3 * q2 + (x 3)⁻¹ * q0 - f (u 3)) = 0 := by
        rw [mul_sub, h3]
        field_simp
        ring
      exact (mul_eq_zero.1 this).resolve_left z
    have k1 := coord co1 0 r 0 (by
      intro i
      rw [co1_apply, hu]
      simp only [Coeffs.unfold]
      rw [(ha i).1]; ring)
    have k2 := coord co2 (∑ j ∈ Finset.range n, a (n + j) * b j)
      (∑ j ∈ Finset.range n, a j * b j + ∑ j ∈ Finset.range n, a (n + j) * b (n + j))
      (∑ j ∈ Finset.range n, a j * b (n + j)) (by
      intro i
      rw [co2_apply, hu]
      simp only [Coeffs.unfold]
      rw [(ha i).2.1]
      have := hx0 i
      field_simp
      ring)
    have k3 : ∀ j, j < n + n → co3 j p.2.1 = a j ∧
        co3 j (p.2.1 + x 3 • p.2.2 + (x 3)⁻¹ • p.1 - u 3) = 0 := by
      intro j hj
      by_cases hjn : j < n
      · apply coord (co3 j) (a (n + j)) (a j) 0
        intro i
        rw [co3_apply, hu]
        simp only [Coeffs.unfold, ← hn, if_pos hjn]
        rw [((ha i).2.2 j (by omega)).1]
        have := hx0 i
        field_simp
        ring
      · have hjj : n + (j - n) = j := by omega
        apply coord (co3 j) 0 (a j) (a (j - n))
        intro i
        rw [co3_apply, hu]
        simp only [Coeffs.unfold, ← hn, if_neg hjn]
        rw [((ha i).2.2 (j - n) (by omega)).1]
        simp only [hjj]
        have := hx0 i
        field_simp
        ring
    have k4 : ∀ j, j < n + n → co4 j p.2.1 = b j ∧
        co4 j (p.2.1 + x 3 • p.2.2 + (x 3)⁻¹ • p.1 - u 3) = 0 := by
      intro j hj
      by_cases hjn : j < n
      · apply coord (co4 j) 0 (b j) (b (n + j))
        intro i
        rw [co4_apply, hu]
        simp only [Coeffs.unfold, ← hn, if_pos hjn]
        rw [((ha i).2.2 j (by omega)).2]
        ring
      · have hjj : n + (j - n) = j := by omega
        apply coord (co4 j) (b (j - n)) (b j) 0
        intro i
        rw [co4_apply, hu]
        simp only [Coeffs.unfold, ← hn, if_neg hjn]
        rw [((ha i).2.2 (j - n) (by omega)).2]
        simp only [hjj]
        have := hx0 i
        field_simp
        ring
    refine ⟨.node L R x t, ⟨m, rfl, hxi, hx0, hg⟩, ?_, ?_⟩
    · simp only [QuadTree.extract, Nat.add_sub_cancel, hui]
      simp only [← hp]
      rw [h2, ← hn, Finset.sum_range_add]
      exact ⟨k1.1, k2.1, fun j hj => ⟨(k3 j hj).1, (k4 j hj).1⟩⟩
    · intro ρ hρ
      simp only [QuadTree.relations, Nat.add_sub_cancel, hui] at hρ
      simp only [← hp, List.mem_cons, List.mem_flatMap, List.mem_map, List.mem_finRange, true_and] at hρ
      rw [h2]
      rcases hρ with rfl | ⟨i, σ, hσ, rfl⟩
      · rw [← hn]
        exact trivial_of_coord _ _ k1.2 k2.2 (fun j hj => (k3 j hj).2) (fun j hj => (k4 j hj).2)
      · exact unfold_trivial (hr i σ hσ)

variable [DecidableEq F] [DecidableEq G]

theorem quadTree_accepted {base : G} {gs hs : List G} {eq : F} {uoff voff : Option (List F)} {C Fg : G}
    (hn1 : 1 ≤ gs.length) (hn2 : gs.length ≤ 2 ^ 63) (hg : gs.length = 2 ^ log2roundUp gs.length)
    (hh : hs.length = gs.length)
    (hu : ∀ o, uoff = some o → o.length = gs.length) (hv : ∀ o, voff = some o → o.length = gs.length)
    (t : QuadTree F G) :
    ∀ (Ls Rs : List G) (xs : List F) (m : ℕ), Ls.length = xs.length → Rs.length = xs.length →
      log2roundUp gs.length = xs.length + m → 0 ∉ xs →
        QuadGood base Fg t m
          (C + eq • Fg - mexp (uoff.getD []) gs - mexp (voff.getD []) hs + mexp xs Ls + mexp (xs.map (·⁻¹)) Rs)
          (foldF (log2roundUp gs.length) xs fun j => gs.getD j 0)
          (foldF (log2roundUp gs.length) (xs.map (·⁻¹)) fun j => hs.getD j 0) →
      t.Accepted base gs hs eq uoff voff C Fg Ls Rs xs := by
  induction t with
  | leaf S1 S2 x a b r =>
    rintro Ls Rs xs m hL hR hm hz ⟨rfl, hx, h1⟩
    rw [Nat.add_zero] at hm
    refine ⟨hx, fun i => quadAccepted_of hn1 hn2 hh hu hv hm.symm hL hR hz ?_⟩
    have e1 := h1 i
    have f2 := foldF_eq (xs.map (·⁻¹)) hs (by rw [List.length_map, ← hm, hh]; exact hg)
    rw [List.length_map] at f2
    rw [hm, foldF_eq xs gs (by rw [← hm]; exact hg), f2] at e1
    linear_combination (norm := module) e1
  | node L R x t ih =>
    rintro Ls Rs xs k hL hR hk hz ⟨m, rfl, hx, hx0, h1⟩
    have hk' : log2roundUp gs.length - 1 - xs.length = m := by omega
    refine ⟨hx, fun i => ih i _ _ _ m (by simp [hL]) (by simp [hR]) (by simp; omega) ?_ ?_⟩
    · simp only [List.mem_append, List.mem_singleton, not_or]
      exact ⟨hz, (hx0 i).symm⟩
    · have g1 := h1 i
      rw [List.map_append, List.map_singleton, foldF_append _ _ _ _ (by omega), foldF_append _ _ _ _ (by simp; omega),
        List.length_map, hk', mexp_append hL.symm, mexp_append (by simp [hR])]
      convert g1 using 1
      simp
      module

end
end Verif
