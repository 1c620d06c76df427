/- Lemmas for special soundness of quadratic proofs. -/
import Verif.Lemmas.Soundness
import Verif.Lemmas.Forgery
import Mathlib.LinearAlgebra.Vandermonde
import Mathlib.Tactic.LinearCombination

namespace Verif
open Spec

section
variable {F G : Type} [Field F] [AddCommGroup G] [Module F G]

/-! ### Interpolation -/

theorem interp_spec {M : Type} [AddCommGroup M] [Module F M] {x y z : F} (hxy : x ≠ y) (hxz : x ≠ z) (hyz : y ≠ z)
    (u v w : M) (p : M × M × M) (hp : p = interp x y z u v w) :
    p.1 + x • p.2.1 + (x ^ 2) • p.2.2 = u ∧ p.1 + y • p.2.1 + (y ^ 2) • p.2.2 = v ∧
    p.1 + z • p.2.1 + (z ^ 2) • p.2.2 = w := by
  have a := sub_ne_zero.2 hxy
  have b := sub_ne_zero.2 hxz
  have c := sub_ne_zero.2 hyz
  have a' := sub_ne_zero.2 hxy.symm
  have b' := sub_ne_zero.2 hxz.symm
  have c' := sub_ne_zero.2 hyz.symm
  have key : ∀ t : F, p.1 + t • p.2.1 + (t ^ 2) • p.2.2 =
      ((t - y) * (t - z) / ((x - y) * (x - z))) • u + ((t - x) * (t - z) / ((y - x) * (y - z))) • v
      + ((t - x) * (t - y) / ((z - x) * (z - y))) • w := by
    intro t
    rw [hp]
    simp only [interp]
    match_scalars <;> ring
  refine ⟨?_, ?_, ?_⟩ <;> rw [key] <;> simp [a, b, c, a', b', c']

theorem interp_unique {M : Type} [AddCommGroup M] [Module F M] {x y z : F} (hxy : x ≠ y) (hxz : x ≠ z) (hyz : y ≠ z)
    (q0 q1 q2 : M) :
    interp x y z (q0 + x • q1 + (x ^ 2) • q2) (q0 + y • q1 + (y ^ 2) • q2) (q0 + z • q1 + (z ^ 2) • q2) = (q0, q1, q2) := by
  have a := sub_ne_zero.2 hxy
  have b := sub_ne_zero.2 hxz
  have c := sub_ne_zero.2 hyz
  have e1 : (y - x) * (y - z) = -((x - y) * (y - z)) := by ring
  have e2 : (z - x) * (z - y) = (x - z) * (y - z) := by ring
  simp only [interp, e1, e2, Prod.mk.injEq]
  refine ⟨?_, ?_, ?_⟩
  · match_scalars <;> field_simp <;> ring
  · match_scalars <;> field_simp <;> ring
  · match_scalars <;> field_simp <;> ring

theorem interp_map {M N : Type} [AddCommGroup M] [Module F M] [AddCommGroup N] [Module F N] (f : M →ₗ[F] N)
    (x y z : F) (u v w : M) :
    interp x y z (f u) (f v) (f w) =
      (f (interp x y z u v w).1, f (interp x y z u v w).2.1, f (interp x y z u v w).2.2) := by
  simp [interp]

/-! ### Evaluation is linear -/

theorem sum_range_list {M : Type} [AddCommMonoid M] (f : ℕ → M) (n : ℕ) :
    ((List.range n).map f).sum = ∑ j ∈ Finset.range n, f j := by
  induction n with
  | zero => simp
  | succ n ih => rw [List.range_succ, List.map_append, List.sum_append, ih, Finset.sum_range_succ]; simp

/-- `Coeffs.eval` as a linear map -/
def evalL (base Fg : G) (g h : ℕ → G) (n : ℕ) : Coeffs F →ₗ[F] G where
  toFun o := o.eval base Fg g h n
  map_add' o p := by
    simp only [Coeffs.eval, sum_range_list, Prod.fst_add, Prod.snd_add, Pi.add_apply, add_smul, Finset.sum_add_distrib]
    abel
  map_smul' c o := by
    simp only [Coeffs.eval, sum_range_list, Prod.smul_fst, Prod.smul_snd, Pi.smul_apply, smul_eq_mul, mul_smul,
      RingHom.id_apply, smul_add, Finset.smul_sum]

theorem evalL_apply (base Fg : G) (g h : ℕ → G) (n : ℕ) (o : Coeffs F) :
    evalL base Fg g h n o = o.eval base Fg g h n := rfl

theorem eval_unfold (base Fg : G) (g h : ℕ → G) (n : ℕ) (x : F) (o : Coeffs F) :
    (o.unfold n x).eval base Fg g h (n + n) =
      o.eval base Fg (fun j => g j + x • g (n + j)) (fun j => h j + x⁻¹ • h (n + j)) n := by
  simp only [Coeffs.eval, Coeffs.unfold, sum_range_list, Finset.sum_range_add, smul_add, Finset.sum_add_distrib]
  have e : ∀ (c : F) (a : ℕ → F) (g : ℕ → G),
      (∑ j ∈ Finset.range n, (if j < n then a j else c * a (j - n)) • g j) = ∑ j ∈ Finset.range n, a j • g j := by
    intro c a g
    refine Finset.sum_congr rfl fun j hj => ?_
    rw [if_pos (Finset.mem_range.1 hj)]
  have e' : ∀ (c : F) (a : ℕ → F) (g : ℕ → G),
      (∑ j ∈ Finset.range n, (if n + j < n then a (n + j) else c * a (n + j - n)) • g (n + j)) =
        ∑ j ∈ Finset.range n, a j • c • g (n + j) := by
    intro c a g
    refine Finset.sum_congr rfl fun j _ => ?_
    rw [if_neg (by omega), Nat.add_sub_cancel_left, mul_comm, mul_smul]
  rw [e, e, e', e']

/-! ### Extraction -/

/-- The equations given by a tree of accepted conversations, level by level. -/
def QuadGood (base Fg : G) : QuadTree F G → ℕ → G → (ℕ → G) → (ℕ → G) → Prop
  | .leaf S1 S2 x a b r, k, Q, g, h => k = 0 ∧ Function.Injective x ∧
      ∀ i, Q + x i • S1 + (x i ^ 2) • S2 = r i • base + a i • g 0 + b i • h 0 + (a i * b i) • Fg
  | .node L R x t, k, Q, g, h => ∃ m, k = m + 1 ∧ Function.Injective x ∧ (∀ i, x i ≠ 0) ∧
      ∀ i, QuadGood base Fg (t i) m (Q + x i • L + (x i)⁻¹ • R) (fun j => g j + x i • g (2 ^ m + j))
        (fun j => h j + (x i)⁻¹ • h (2 ^ m + j))

theorem quadGood_extract (base Fg : G) (t : QuadTree F G) : ∀ (k : ℕ) (Q : G) (g h : ℕ → G),
    QuadGood base Fg t k Q g h →
    (t.extract k).eval base Fg g h (2 ^ k) = Q ∧
    ∀ ρ ∈ t.relations k, ρ.eval base Fg g h (2 ^ k) = 0 := by
  induction t with
  | leaf S1 S2 x a b r =>
    rintro k Q g h ⟨rfl, hx, he⟩
    obtain ⟨u, hu⟩ : ∃ u : Fin 5 → Coeffs F, u = fun i => (r i, a i * b i, fun _ => a i, fun _ => b i) := ⟨_, rfl⟩
    have hui : ∀ i, ((r i, a i * b i, fun _ => a i, fun _ => b i) : Coeffs F) = u i := by intro i; rw [hu]
    have hev : ∀ i, evalL base Fg g h (2 ^ 0) (u i) = Q + x i • S1 + (x i ^ 2) • S2 := by
      intro i
      rw [he i, evalL_apply, hu]
      simp [Coeffs.eval, List.range_succ]
      abel
    obtain ⟨p, hp⟩ : ∃ p, p = interp (x 0) (x 1) (x 2) (u 0) (u 1) (u 2) := ⟨_, rfl⟩
    have hi := interp_unique (hx.ne (by decide : (0 : Fin 5) ≠ 1)) (hx.ne (by decide : (0 : Fin 5) ≠ 2))
      (hx.ne (by decide : (1 : Fin 5) ≠ 2)) Q S1 S2
    rw [← hev, ← hev, ← hev, interp_map, ← hp] at hi
    simp only [Prod.mk.injEq] at hi
    have hr : ∀ i, evalL base Fg g h (2 ^ 0) (p.1 + x i • p.2.1 + (x i ^ 2) • p.2.2 - u i) = 0 := by
      intro i
      rw [map_sub, map_add, map_add, map_smul, map_smul, hi.1, hi.2.1, hi.2.2, hev, sub_self]
    simp only [QuadTree.extract, QuadTree.relations, hui]
    simp only [← hp, ← evalL_apply]
    refine ⟨hi.1, ?_⟩
    intro ρ hρ
    simp only [List.mem_cons, List.not_mem_nil, or_false] at hρ
    rcases hρ with rfl | rfl
    · exact hr 3
    · exact hr 4
  | node L R x t ih =>
    rintro k Q g h ⟨m, rfl, hx, hz, he⟩
    have h2 : 2 ^ (m + 1) = 2 ^ m + 2 ^ m := by rw [pow_succ]; ring
    obtain ⟨u, hu⟩ : ∃ u : Fin 4 → Coeffs F, u = fun i => ((t i).extract m).unfold (2 ^ m) (x i) := ⟨_, rfl⟩
    have hui : ∀ i, ((t i).extract m).unfold (2 ^ m) (x i) = u i := by intro i; rw [hu]
    have hev : ∀ i, evalL base Fg g h (2 ^ (m + 1)) (u i) = Q + x i • L + (x i)⁻¹ • R := by
      intro i
      rw [evalL_apply, hu, h2, eval_unfold, (ih i m _ _ _ (he i)).1]
    have hev' : ∀ i, evalL base Fg g h (2 ^ (m + 1)) (x i • u i) = R + x i • Q + (x i ^ 2) • L := by
      intro i
      have := hz i
      rw [map_smul, hev]
      match_scalars <;> field_simp
    obtain ⟨p, hp⟩ : ∃ p, p = interp (x 0) (x 1) (x 2) (x 0 • u 0) (x 1 • u 1) (x 2 • u 2) := ⟨_, rfl⟩
    have hi := interp_unique (hx.ne (by decide : (0 : Fin 4) ≠ 1)) (hx.ne (by decide : (0 : Fin 4) ≠ 2))
      (hx.ne (by decide : (1 : Fin 4) ≠ 2)) R Q L
    rw [← hev', ← hev', ← hev', interp_map, ← hp] at hi
    simp only [Prod.mk.injEq] at hi
    simp only [QuadTree.extract, QuadTree.relations, Nat.add_sub_cancel, hui]
    simp only [← hp, ← evalL_apply]
    refine ⟨hi.2.1, ?_⟩
    intro ρ hρ
    simp only [List.mem_cons, List.mem_flatMap, List.mem_map, List.mem_finRange, true_and] at hρ
    rcases hρ with rfl | ⟨i, σ, hσ, rfl⟩
    · rw [map_sub, map_add, map_add, map_smul, map_smul, hi.1, hi.2.1, hi.2.2, hev, sub_self]
    · rw [evalL_apply, h2, eval_unfold]
      exact (ih i m _ _ _ (he i)).2 σ hσ

/-! ### Without relations the extracted value is the inner product -/

theorem poly_zero {n : ℕ} {x : Fin n → F} (hx : Function.Injective x) (v : Fin n → F)
    (h : ∀ j, ∑ i, v i * x j ^ (i : ℕ) = 0) : ∀ i, v i = 0 := by
  have := Matrix.eq_zero_of_forall_index_sum_mul_pow_eq_zero hx (v := v) (fun j => h j)
  intro i; rw [this]; rfl

theorem trivial_unfold {n : ℕ} {x : F} {o : Coeffs F} (h : (o.unfold n x).Trivial (n + n)) : o.Trivial n := by
  obtain ⟨h1, h2, h3⟩ := h
  refine ⟨h1, h2, fun j hj => ?_⟩
  have := h3 j (by omega)
  simpa [Coeffs.unfold, hj] using this

theorem quadGood_inner (base Fg : G) (t : QuadTree F G) : ∀ (k : ℕ) (Q : G) (g h : ℕ → G),
    QuadGood base Fg t k Q g h → (∀ ρ ∈ t.relations k, ρ.Trivial (2 ^ k)) →
    (t.extract k).2.1 = ∑ j ∈ Finset.range (2 ^ k), (t.extract k).2.2.1 j * (t.extract k).2.2.2 j := by
  induction t with
  | leaf S1 S2 x a b r =>
    rintro k Q g h ⟨rfl, hx, -⟩ htr
    obtain ⟨u, hu⟩ : ∃ u : Fin 5 → Coeffs F, u = fun i => (r i, a i * b i, fun _ => a i, fun _ => b i) := ⟨_, rfl⟩
    have hui : ∀ i, ((r i, a i * b i, fun _ => a i, fun _ => b i) : Coeffs F) = u i := by intro i; rw [hu]
    obtain ⟨p, hp⟩ : ∃ p, p = interp (x 0) (x 1) (x 2) (u 0) (u 1) (u 2) := ⟨_, rfl⟩
    obtain ⟨i0, i1, i2⟩ := interp_spec (hx.ne (by decide : (0 : Fin 5) ≠ 1)) (hx.ne (by decide : (0 : Fin 5) ≠ 2))
      (hx.ne (by decide : (1 : Fin 5) ≠ 2)) (u 0) (u 1) (u 2) p hp
    simp only [QuadTree.extract, QuadTree.relations, hui] at htr ⊢
    simp only [← hp] at htr ⊢
    have h3 := htr _ (List.mem_cons_self)
    have h4 := htr _ (List.mem_cons_of_mem _ List.mem_cons_self)
    -- all five answers lie on the interpolated polynomials
    have key : ∀ i, (p.1 + x i • p.2.1 + (x i ^ 2) • p.2.2).2.1 = a i * b i ∧
        (p.1 + x i • p.2.1 + (x i ^ 2) • p.2.2).2.2.1 0 = a i ∧
        (p.1 + x i • p.2.1 + (x i ^ 2) • p.2.2).2.2.2 0 = b i := by
      have t0 : ∀ i, (p.1 + x i • p.2.1 + (x i ^ 2) • p.2.2) = u i → 
          (p.1 + x i • p.2.1 + (x i ^ 2) • p.2.2).2.1 = a i * b i ∧
          (p.1 + x i • p.2.1 + (x i ^ 2) • p.2.2).2.2.1 0 = a i ∧
          (p.1 + x i • p.2.1 + (x i ^ 2) • p.2.2).2.2.2 0 = b i := by
        intro i hi; rw [hi, hu]; simp
      have t1 : ∀ i, (p.1 + x i • p.2.1 + (x i ^ 2) • p.2.2 - u i).Trivial (2 ^ 0) → 
          (p.1 + x i • p.2.1 + (x i ^ 2) • p.2.2).2.1 = a i * b i ∧
          (p.1 + x i • p.2.1 + (x i ^ 2) • p.2.2).2.2.1 0 = a i ∧
          (p.1 + x i • p.2.1 + (x i ^ 2) • p.2.2).2.2.2 0 = b i := by
        rintro i ⟨-, c1, c2⟩
        obtain ⟨c2, c3⟩ := c2 0 (by simp)
        simp only [Prod.snd_sub, Prod.fst_sub, Pi.sub_apply] at c1 c2 c3
        rw [sub_eq_zero] at c1 c2 c3
        rw [c1, c2, c3, hu]; simp
      intro i
      fin_cases i
      · exact t0 0 i0
      · exact t0 1 i1
      · exact t0 2 i2
      · exact t1 3 h3
      · exact t1 4 h4
    simp only [Prod.snd_add, Prod.fst_add, Prod.smul_snd, Prod.smul_fst, Pi.add_apply, Pi.smul_apply, smul_eq_mul] at key
    have := poly_zero hx ![p.1.2.1 - p.1.2.2.1 0 * p.1.2.2.2 0,
      p.2.1.2.1 - p.1.2.2.1 0 * p.2.1.2.2.2 0 - p.2.1.2.2.1 0 * p.1.2.2.2 0,
      p.2.2.2.1 - p.1.2.2.1 0 * p.2.2.2.2.2 0 - p.2.2.2.2.1 0 * p.1.2.2.2 0 - p.2.1.2.2.1 0 * p.2.1.2.2.2 0,
      - p.2.1.2.2.1 0 * p.2.2.2.2.2 0 - p.2.2.2.2.1 0 * p.2.1.2.2.2 0,
      - p.2.2.2.2.1 0 * p.2.2.2.2.2 0] (by
        intro j
        obtain ⟨k1, k2, k3⟩ := key j
        simp only [Fin.sum_univ_succ]
        simp
        linear_combination k1 - (p.1.2.2.1 0 + x j * p.2.1.2.2.1 0 + x j ^ 2 * p.2.2.2.2.1 0) * k3 - b j * k2) 0
    simp only [Matrix.cons_val_zero] at this
    simpa using sub_eq_zero.1 this
  | node L R x t ih =>
    rintro k Q g h ⟨m, rfl, hx, hz, he⟩ htr
    have h2 : 2 ^ (m + 1) = 2 ^ m + 2 ^ m := by rw [pow_succ]; ring
    obtain ⟨o, ho⟩ : ∃ o : Fin 4 → Coeffs F, o = fun i => (t i).extract m := ⟨_, rfl⟩
    have hoi : ∀ i, (t i).extract m = o i := by intro i; rw [ho]
    obtain ⟨u, hu⟩ : ∃ u : Fin 4 → Coeffs F, u = fun i => (o i).unfold (2 ^ m) (x i) := ⟨_, rfl⟩
    have hui : ∀ i, (o i).unfold (2 ^ m) (x i) = u i := by intro i; rw [hu]
    obtain ⟨p, hp⟩ : ∃ p, p = interp (x 0) (x 1) (x 2) (x 0 • u 0) (x 1 • u 1) (x 2 • u 2) := ⟨_, rfl⟩
    obtain ⟨i0, i1, i2⟩ := interp_spec (hx.ne (by decide : (0 : Fin 4) ≠ 1)) (hx.ne (by decide : (0 : Fin 4) ≠ 2))
      (hx.ne (by decide : (1 : Fin 4) ≠ 2)) (x 0 • u 0) (x 1 • u 1) (x 2 • u 2) p hp
    simp only [QuadTree.extract, QuadTree.relations, Nat.add_sub_cancel, hoi, hui] at htr ⊢
    simp only [← hp] at htr ⊢
    -- the subtrees
    have hsub : ∀ i, (o i).2.1 = ∑ j ∈ Finset.range (2 ^ m), (o i).2.2.1 j * (o i).2.2.2 j := by
      intro i
      rw [← hoi]
      refine ih i m _ _ _ (he i) fun ρ hρ => trivial_unfold (x := x i) ?_
      rw [← h2]
      refine htr _ (List.mem_cons_of_mem _ ?_)
      simp only [List.mem_flatMap, List.mem_map, List.mem_finRange, true_and]
      exact ⟨i, ρ, hρ, rfl⟩
    have key : ∀ i, p.1.2.1 + x i * p.2.1.2.1 + x i ^ 2 * p.2.2.2.1 = x i * (o i).2.1 ∧
        ∀ j, j < 2 ^ (m + 1) →
          p.1.2.2.1 j + x i * p.2.1.2.2.1 j + x i ^ 2 * p.2.2.2.2.1 j = x i * (u i).2.2.1 j ∧
          p.1.2.2.2 j + x i * p.2.1.2.2.2 j + x i ^ 2 * p.2.2.2.2.2 j = x i * (u i).2.2.2 j := by
      have t0 : ∀ i, p.1 + x i • p.2.1 + (x i ^ 2) • p.2.2 = x i • u i →
          (p.1.2.1 + x i * p.2.1.2.1 + x i ^ 2 * p.2.2.2.1 = x i * (u i).2.1 ∧
          ∀ j, j < 2 ^ (m + 1) →
          p.1.2.2.1 j + x i * p.2.1.2.2.1 j + x i ^ 2 * p.2.2.2.2.1 j = x i * (u i).2.2.1 j ∧
          p.1.2.2.2 j + x i * p.2.1.2.2.2 j + x i ^ 2 * p.2.2.2.2.2 j = x i * (u i).2.2.2 j) := by
        intro i hi
        refine ⟨congrArg (fun o => o.2.1) hi, fun j _ => ⟨congrArg (fun o => o.2.2.1 j) hi, congrArg (fun o => o.2.2.2 j) hi⟩⟩
      have t1 : (p.1.2.1 + x 3 * p.2.1.2.1 + x 3 ^ 2 * p.2.2.2.1 = x 3 * (u 3).2.1 ∧
          ∀ j, j < 2 ^ (m + 1) →
          p.1.2.2.1 j + x 3 * p.2.1.2.2.1 j + x 3 ^ 2 * p.2.2.2.2.1 j = x 3 * (u 3).2.2.1 j ∧
          p.1.2.2.2 j + x 3 * p.2.1.2.2.2 j + x 3 ^ 2 * p.2.2.2.2.2 j = x 3 * (u 3).2.2.2 j) := by
        obtain ⟨-, c1, c2⟩ := htr _ List.mem_cons_self
        simp only [Prod.snd_sub, Prod.fst_sub, Pi.sub_apply, Prod.snd_add, Prod.fst_add, Prod.smul_snd,
          Prod.smul_fst, Pi.add_apply, Pi.smul_apply, smul_eq_mul] at c1 c2
        have hz3 := hz 3
        have aux : ∀ a b c d : F, b + x 3 * c + (x 3)⁻¹ * a - d = 0 → a + x 3 * b + x 3 ^ 2 * c = x 3 * d := by
          intro a b c d hh
          have : x 3 * (b + x 3 * c + (x 3)⁻¹ * a - d) = 0 := by rw [hh, mul_zero]
          field_simp at this
          linear_combination this
        exact ⟨aux _ _ _ _ c1, fun j hj => ⟨aux _ _ _ _ (c2 j hj).1, aux _ _ _ _ (c2 j hj).2⟩⟩
      have hc : ∀ i, (u i).2.1 = (o i).2.1 := by intro i; rw [hu]; rfl
      intro i
      rw [← hc]
      fin_cases i
      · exact t0 0 i0
      · exact t0 1 i1
      · exact t0 2 i2
      · exact t1
    -- coordinates of the subtrees in terms of the extracted vectors
    have hab : ∀ j, j < 2 ^ m → (∀ i, x i * (o i).2.2.1 j = x i * p.2.1.2.2.1 j + p.2.1.2.2.1 (2 ^ m + j)) ∧
        (∀ i, (o i).2.2.2 j = p.2.1.2.2.2 j + x i * p.2.1.2.2.2 (2 ^ m + j)) := by
      intro j hj
      have lo : ∀ i, (u i).2.2.1 j = (o i).2.2.1 j ∧ (u i).2.2.2 j = (o i).2.2.2 j := by
        intro i; rw [hu]; simp [Coeffs.unfold, hj]
      have hi : ∀ i, (u i).2.2.1 (2 ^ m + j) = x i * (o i).2.2.1 j ∧ (u i).2.2.2 (2 ^ m + j) = (x i)⁻¹ * (o i).2.2.2 j := by
        intro i; rw [hu]; simp [Coeffs.unfold]
      have k1 : ∀ i, _ := fun i => (key i).2 j (by omega)
      have k2 : ∀ i, _ := fun i => (key i).2 (2 ^ m + j) (by omega)
      simp only [(lo _).1, (lo _).2] at k1
      simp only [(hi _).1, (hi _).2] at k2
      constructor
      · have v := poly_zero hx ![- p.1.2.2.1 (2 ^ m + j), p.1.2.2.1 j - p.2.1.2.2.1 (2 ^ m + j),
            p.2.1.2.2.1 j - p.2.2.2.2.1 (2 ^ m + j), p.2.2.2.2.1 j] (by
          intro i
          have e1 := (k1 i).1
          have e2 := (k2 i).1
          simp only [Fin.sum_univ_succ]
          simp
          linear_combination x i * e1 - e2)
        intro i
        have e1 := (k1 i).1
        have v1 := v 1
        have v3 := v 3
        simp at v1 v3
        rw [sub_eq_zero] at v1
        rw [← e1, v3, v1]; ring
      · have v := poly_zero hx ![p.1.2.2.2 j, p.2.1.2.2.2 j - p.1.2.2.2 (2 ^ m + j),
            p.2.2.2.2.2 j - p.2.1.2.2.2 (2 ^ m + j), - p.2.2.2.2.2 (2 ^ m + j)] (by
          intro i
          have e1 := (k1 i).2
          have e2 := (k2 i).2
          have := hz i
          rw [mul_inv_cancel_left₀ (hz i)] at e2
          simp only [Fin.sum_univ_succ]
          simp
          linear_combination e1 - x i * e2)
        intro i
        have e2 := (k2 i).2
        rw [mul_inv_cancel_left₀ (hz i)] at e2
        have v1 := v 1
        have v3 := v 3
        simp at v1 v3
        rw [sub_eq_zero] at v1
        rw [← e2, v3, v1]; ring
    -- the inner products
    obtain ⟨A, hA⟩ : ∃ A : F, A = ∑ j ∈ Finset.range (2 ^ m), p.2.1.2.2.1 (2 ^ m + j) * p.2.1.2.2.2 j := ⟨_, rfl⟩
    obtain ⟨B, hB⟩ : ∃ B : F, B = ∑ j ∈ Finset.range (2 ^ m), p.2.1.2.2.1 j * p.2.1.2.2.2 (2 ^ m + j) := ⟨_, rfl⟩
    rw [h2, Finset.sum_range_add]
    obtain ⟨C1, hC1⟩ : ∃ C : F, C = ∑ j ∈ Finset.range (2 ^ m), p.2.1.2.2.1 j * p.2.1.2.2.2 j := ⟨_, rfl⟩
    obtain ⟨C2, hC2⟩ : ∃ C : F, C = ∑ j ∈ Finset.range (2 ^ m), p.2.1.2.2.1 (2 ^ m + j) * p.2.1.2.2.2 (2 ^ m + j) := ⟨_, rfl⟩
    rw [← hC1, ← hC2]
    have hs : ∀ i, x i * (o i).2.1 = A + x i * (C1 + C2) + x i ^ 2 * B := by
      intro i
      rw [hsub, Finset.mul_sum, hA, hB, hC1, hC2, mul_add, Finset.mul_sum, Finset.mul_sum, Finset.mul_sum,
        ← Finset.sum_add_distrib, ← Finset.sum_add_distrib, ← Finset.sum_add_distrib]
      refine Finset.sum_congr rfl fun j hj => ?_
      obtain ⟨a1, a2⟩ := hab j (Finset.mem_range.1 hj)
      rw [← mul_assoc, a1, a2]; ring
    have v := poly_zero hx ![p.1.2.1 - A, p.2.1.2.1 - (C1 + C2), p.2.2.2.1 - B, 0] (by
      intro i
      have e1 := (key i).1
      have e2 := hs i
      simp only [Fin.sum_univ_succ]
      simp
      linear_combination e1 + e2)
    have v1 := v 1
    simp at v1
    exact sub_eq_zero.1 v1

/-! ### From accepted conversations to equations -/

/-- Folding by the challenges so far, out of `k` levels, on functions. -/
def foldF : ℕ → List F → (ℕ → G) → ℕ → G
  | k + 1, x :: xs, g => foldF k xs fun j => g j + x • g (2 ^ k + j)
  | _, _, g => g

@[simp] theorem foldF_nil (k : ℕ) (g : ℕ → G) : foldF k ([] : List F) g = g := by cases k <;> rfl

theorem foldF_append (k : ℕ) (xs : List F) (x : F) (g : ℕ → G) (h : xs.length < k) :
    foldF k (xs ++ [x]) g = fun j => foldF k xs g j + x • foldF k xs g (2 ^ (k - 1 - xs.length) + j) := by
  induction xs generalizing k g with
  | nil =>
    obtain ⟨k, rfl⟩ : ∃ j, k = j + 1 := ⟨k - 1, by simp at h; omega⟩
    simp [foldF]
  | cons y xs ih =>
    obtain ⟨k, rfl⟩ : ∃ j, k = j + 1 := ⟨k - 1, by simp at h; omega⟩
    simp only [List.length_cons] at h
    simp only [List.cons_append, foldF, List.length_cons]
    rw [ih k _ (by omega)]
    have : k - 1 - xs.length = k + 1 - 1 - (xs.length + 1) := by omega
    rw [this]

theorem foldF_congr (xs : List F) (g g' : ℕ → G) (h : ∀ j, j < 2 ^ xs.length → g j = g' j) :
    foldF xs.length xs g 0 = foldF xs.length xs g' 0 := by
  induction xs generalizing g g' with
  | nil => simpa using h 0 (by simp)
  | cons x xs ih =>
    simp only [List.length_cons, foldF]
    rw [List.length_cons, pow_succ] at h
    exact ih _ _ fun j hj => by rw [h j (by omega), h _ (by omega)]

theorem foldF_eq (xs : List F) (gs : List G) (h : gs.length = 2 ^ xs.length) :
    foldF xs.length xs (fun j => gs.getD j 0) 0 = foldedSum xs gs := by
  have hs := foldAll_singleton xs gs (by rw [h]; exact Nat.one_le_two_pow) h.le
  have : foldF xs.length xs (fun j => gs.getD j 0) 0 = (foldAll xs gs).getD 0 0 := by
    clear hs
    induction xs generalizing gs with
    | nil => rfl
    | cons x xs ih =>
      simp only [List.length_cons, foldF, foldAll]
      rw [List.length_cons, pow_succ] at h
      rw [← ih (foldP (2 ^ xs.length) x gs) (by simp; omega)]
      refine foldF_congr _ _ _ fun j hj => ?_
      simp only [List.getD_eq_getElem?_getD]
      rw [getElem?_foldP _ x gs j hj (by omega) (by omega), if_pos (by omega), Nat.add_comm j,
        List.getElem?_eq_getElem (by omega : j < gs.length),
        List.getElem?_eq_getElem (by omega : 2 ^ xs.length + j < gs.length)]
      rfl
  rw [this, hs]; rfl

variable [DecidableEq F] [DecidableEq G]

theorem quadAccepted_eq {base : G} {gs hs : List G} {eq : F} {uoff voff : Option (List F)} {C Fg : G}
    {Ls Rs : List G} {xs : List F} {S1 S2 : G} {x a b r : F}
    (h : QuadAccepted base gs hs eq uoff voff C Fg Ls Rs xs S1 S2 x a b r) (hn1 : 1 ≤ gs.length)
    (hn2 : gs.length ≤ 2 ^ 63) (hh : hs.length = gs.length)
    (hu : ∀ o, uoff = some o → o.length = gs.length) (hv : ∀ o, voff = some o → o.length = gs.length) :
    xs.length = log2roundUp gs.length ∧ 0 ∉ xs ∧
    (C + eq • Fg - mexp (uoff.getD []) gs - mexp (voff.getD []) hs + mexp xs Ls + mexp (xs.map (·⁻¹)) Rs)
        + x • S1 + (x ^ 2) • S2 =
      r • base + a • foldedSum xs gs + b • foldedSum (xs.map (·⁻¹)) hs + (a * b) • Fg := by
  obtain ⟨E, tag, st, st', hE, hF, hxs, hx, hvf⟩ := h
  by_cases hL : Ls.length = log2roundUp gs.length ∧ Rs.length = log2roundUp gs.length
  · by_cases hz : 0 ∈ xs
    · rw [verifyQuadratic_zero E _ gs hs _ eq st uoff voff hn1 hn2 (by rw [hxs]; exact hz)] at hvf; cases hvf
    · obtain ⟨bb, h1, h2⟩ := verifyQuadratic_eq E ⟨tag, C, Ls, Rs, S1, S2, a, b, r⟩ gs hs _ eq st uoff voff hn1 hn2 rfl hh
        hu hv hL.1 hL.2 (by rw [hxs]; exact hz)
      rw [h1] at hvf
      have hbt : bb = true := congrArg Prod.fst (Res.ok.inj hvf)
      have heq := h2.1 hbt
      have hxl : xs.length = log2roundUp gs.length := by
        rw [← hxs]
        simp only [deriveQuad, length_foldChallenges, hL.1, hL.2, min_self]
      refine ⟨hxl, hz, ?_⟩
      unfold QuadEq at heq
      rw [hF, hxs, hx, hE] at heq
      simp only at heq
      have e0 : (offList uoff) = uoff.getD [] := rfl
      have e1 : (offList voff) = voff.getD [] := rfl
      rw [e0, e1] at heq
      linear_combination (norm := module) heq
  · rw [verifyQuadratic_len E _ gs hs _ eq st uoff voff (by tauto)] at hvf; cases hvf

theorem quadTree_good {base : G} {gs hs : List G} {eq : F} {uoff voff : Option (List F)} {C Fg : G}
    (hn1 : 1 ≤ gs.length) (hn2 : gs.length ≤ 2 ^ 63) (hg : gs.length = 2 ^ log2roundUp gs.length)
    (hh : hs.length = gs.length)
    (hu : ∀ o, uoff = some o → o.length = gs.length) (hv : ∀ o, voff = some o → o.length = gs.length)
    (t : QuadTree F G) :
    ∀ (Ls Rs : List G) (xs : List F), Ls.length = xs.length → Rs.length = xs.length →
      t.Accepted base gs hs eq uoff voff C Fg Ls Rs xs →
      ∃ m, log2roundUp gs.length = xs.length + m ∧ 0 ∉ xs ∧
        QuadGood base Fg t m
          (C + eq • Fg - mexp (uoff.getD []) gs - mexp (voff.getD []) hs + mexp xs Ls + mexp (xs.map (·⁻¹)) Rs)
          (foldF (log2roundUp gs.length) xs fun j => gs.getD j 0)
          (foldF (log2roundUp gs.length) (xs.map (·⁻¹)) fun j => hs.getD j 0) := by
  induction t with
  | leaf S1 S2 x a b r =>
    rintro Ls Rs xs hL hR ⟨hx, h1⟩
    obtain ⟨e0, z, -⟩ := quadAccepted_eq (h1 0) hn1 hn2 hh hu hv
    refine ⟨0, e0.symm, z, rfl, hx, fun i => ?_⟩
    obtain ⟨-, -, e1⟩ := quadAccepted_eq (h1 i) hn1 hn2 hh hu hv
    rw [e1, ← e0, foldF_eq xs gs (by rw [e0]; exact hg)]
    have := foldF_eq (xs.map (·⁻¹)) hs (by rw [List.length_map, e0, hh]; exact hg)
    rw [List.length_map] at this
    rw [this]
  | node L R x t ih =>
    rintro Ls Rs xs hL hR ⟨hx, h1⟩
    have key : ∀ i, ∃ m, log2roundUp gs.length = xs.length + 1 + m ∧ 0 ∉ xs ∧ x i ≠ 0 ∧ _ := fun i => by
      obtain ⟨m, k1, z1, g1⟩ := ih i _ _ _ (by simp [hL]) (by simp [hR]) (h1 i)
      simp only [List.length_append, List.length_singleton] at k1
      exact ⟨m, k1, fun h => z1 (by simp [h]), fun h => z1 (by simp [h]), g1⟩
    obtain ⟨m, k1, z1, -, -⟩ := key 0
    refine ⟨m + 1, by omega, z1, m, rfl, hx, fun i => (key i).choose_spec.2.2.1, fun i => ?_⟩
    obtain ⟨m', k2, -, -, g1⟩ := key i
    obtain rfl : m' = m := by omega
    have hk : log2roundUp gs.length - 1 - xs.length = m' := by omega
    rw [List.map_append, List.map_singleton, foldF_append _ _ _ _ (by omega), foldF_append _ _ _ _ (by simp; omega),
      List.length_map, hk, mexp_append hL.symm, mexp_append (by simp [hR])] at g1
    convert g1 using 1
    simp
    module

/-! ### Accepting conversations exist for all challenges -/

theorem quadAccepted_of {base : G} {gs hs : List G} {eq : F} {uoff voff : Option (List F)} {C Fg : G}
    {Ls Rs : List G} {xs : List F} {S1 S2 : G} {x a b r : F} (hn1 : 1 ≤ gs.length) (hn2 : gs.length ≤ 2 ^ 63)
    (hh : hs.length = gs.length) (hu : ∀ o, uoff = some o → o.length = gs.length)
    (hv : ∀ o, voff = some o → o.length = gs.length)
    (hxs : xs.length = log2roundUp gs.length) (hL : Ls.length = xs.length) (hR : Rs.length = xs.length)
    (hz : 0 ∉ xs)
    (he : C + eq • Fg + mexp xs Ls + mexp (xs.map (·⁻¹)) Rs + x • S1 + (x * x) • S2 =
      r • base + (a • foldedSum xs gs + mexp (uoff.getD []) gs)
      + (b • foldedSum (xs.map (·⁻¹)) hs + mexp (voff.getD []) hs) + (a * b) • Fg) :
    QuadAccepted base gs hs eq uoff voff C Fg Ls Rs xs S1 S2 x a b r := by
  have hc := progEnv_challenges base Fg (xs ++ [x]) Ls Rs xs gs.length 1 hL hR le_rfl (by
    intro i hi
    simp only [Nat.sub_self, Nat.zero_add, List.getD_eq_getElem?_getD]
    rw [List.getElem?_append_left hi])
  have hd : deriveQuad (progEnv base Fg (xs ++ [x])) ⟨[], C, Ls, Rs, S1, S2, a, b, r⟩ gs.length (show (progEnv base Fg (xs ++ [x])).St from (0 : Nat)) =
      ⟨Fg, xs, x, (show (progEnv base Fg (xs ++ [x])).St from (1 + xs.length + 1 : Nat))⟩ := by
    show (Derived.mk Fg (foldChallenges (progEnv base Fg (xs ++ [x])) gs.length (show (progEnv base Fg (xs ++ [x])).St from (1 : Nat)) Ls Rs).1
      ((xs ++ [x]).getD ((List.replicate (show Nat from (foldChallenges (progEnv base Fg (xs ++ [x])) gs.length (show (progEnv base Fg (xs ++ [x])).St from (1 : Nat)) Ls Rs).2) (0 : UInt8)).length - 1) 0)
      (show (progEnv base Fg (xs ++ [x])).St from ((show Nat from (foldChallenges (progEnv base Fg (xs ++ [x])) gs.length (show (progEnv base Fg (xs ++ [x])).St from (1 : Nat)) Ls Rs).2) + 1 : Nat))) = _
    rw [hc]
    simp
  obtain ⟨bb, h1, h2⟩ := verifyQuadratic_eq (progEnv base Fg (xs ++ [x])) ⟨[], C, Ls, Rs, S1, S2, a, b, r⟩ gs hs gs.length eq
    (show (progEnv base Fg (xs ++ [x])).St from (0 : Nat)) uoff voff hn1 hn2 rfl hh hu hv (by simp [hL, hxs]) (by simp [hR, hxs])
    (by rw [hd]; exact hz)
  have hbt : bb = true := h2.2 (by rw [hd]; exact he)
  rw [hbt] at h1
  exact ⟨progEnv base Fg (xs ++ [x]), [], (show (progEnv base Fg (xs ++ [x])).St from (0 : Nat)), _, rfl,
    by rw [hd], by rw [hd], by rw [hd], h1⟩

end
end Verif
