/-
C63: which norm bounds the aggregated proof enforces (regevProofs.cpp:769-838, 1025-1083).
-/
import Verif.Props.Aggregate
import Mathlib.Algebra.Polynomial.Roots

namespace Verif.Props
open Verif Verif.Spec

section
variable {F G : Type} [Field F] [DecidableEq F] [AddCommGroup G] [Module F G]

/-- What the verifier computes, in full. -/
theorem publicStatement_spec (E : Env F G) (tie : List (CompIter F) → ℕ) (v : ReadyToVerify F G)
    (vd : VerifierData F G E.St) (wCom : G) (r1 r2 u rho : F) (st1 st2 st3 st4 : E.St) (B : ℕ)
    (hB : 0 < B)
    (h1 : E.newChallenge vd.mer (str "aggregateLinear") = (r1, st1))
    (h2 : E.newChallenge st1 (str "aggregateNorms") = (r2, st2))
    (h3 : E.newChallenge st2 (str "enforceNorm") = (u, st3))
    (h4 : E.newChallenge st3 (str "separareLinQuad") = (rho, st4)) (hr2 : r2 ≠ 0)
    (hne : vd.linConstr ≠ []) (hs : ∀ c ∈ vd.linConstr, Sorted c.terms)
    (hk : ∀ c ∈ vd.linConstr, ∀ k ∈ keys c.terms, k < vd.ix.w)
    (hlast : aggCoef vd.linConstr r1 (vd.ix.w - 1) ≠ 0)
    (hn : vd.normConstr.length = 10) (hI : NormBlocks vd.normConstr B) (hw : B * 10 < vd.ix.w)
    (hw2 : vd.ix.w < 2 ^ 31) :
    ∃ v2 bs, publicStatement E tie v vd wCom = .ok (v2, st4) ∧
      Sorted bs ∧ (∀ i ∈ keys bs, B * 10 ≤ i ∧ i < vd.ix.w) ∧
      (∀ i, B * 10 ≤ i → coef bs i = aggCoef vd.linConstr r1 i) ∧
      v2.linCnstr = ⟨bs ++ [(vd.ix.w, -1)], 0⟩ ∧
      v2.quadCnstr = ⟨List.range (B * 10) ++ [vd.ix.w],
        ((vd.normConstr.zip (pows r2 10)).map fun p => p.2 ^ 2 * p.1.equalsTo).sum
          - ((List.range (B * 10)).map fun i => u ^ i * u ^ i).sum
          + rho * (aggRhs vd.linConstr r1 - ((List.range (B * 10)).map fun i =>
              aggCoef vd.linConstr r1 i * (r2 ^ (i / B))⁻¹ * u ^ i).sum)⟩ ∧
      v2.deltaG = tab (List.range (B * 10) ++ [vd.ix.w]) (fun i => if i = vd.ix.w then 0 else
        aggCoef vd.linConstr r1 i * (r2 ^ (i / B))⁻¹ * -rho - u ^ i) ∧
      v2.deltaH = tab (List.range (B * 10) ++ [vd.ix.w]) (fun i => if i = vd.ix.w then -rho else u ^ i) ∧
      v2.linCom = vd.com.lins.sum + wCom ∧
      v2.quadCom = (List.zipWith (· • ·) (pows r2 10)
        (List.zipWith (· + ·) vd.com.comps vd.com.pads)).sum + wCom := by
  obtain ⟨v1, com', a1, a2, a3, a4, a5, a6, a7, a8, a9, a10, a11⟩ := aggregateVerifier1_spec E tie
    v vd r1 r2 st1 st2 B hB h1 h2 hr2 hne hs hk hlast hn hI hw hw2
  have hputb : mapPut v1.bs vd.ix.w (-1) = v1.bs ++ [(vd.ix.w, -1)] :=
    mapPut_append _ _ _ (fun i hi => (a8 i hi).2)
  have hlt : ∀ i ∈ List.range (B * 10), i ≠ vd.ix.w := by
    intro i hi
    have := List.mem_range.1 hi
    omega
  have hv2 := aggregateVerifier2_spec E
    ({ v1 with linCom := v1.linCom + wCom, quadCom := v1.quadCom + wCom,
               bs := mapPut v1.bs vd.ix.w (-1) })
    ({ vd with com := com', mer := st2 })
    (B * 10) (by omega) (by simp only; omega)
    (fun i => aggCoef vd.linConstr r1 i * (r2 ^ (i / B))⁻¹) _ u rho st3 st4 a4 a6 h3 h4
  unfold publicStatement
  rw [a1]
  simp only [Res.ok_bind]
  rw [hv2]
  refine ⟨_, v1.bs, rfl, a7, a8, a9, ?_, ?_, ?_, ?_, ?_, ?_⟩
  · simp only; rw [hputb]
  · simp only; rw [a5]
  · simp only; rw [tab_snoc _ _ hlt]
  · simp only; rw [tab_snoc _ _ hlt]
  · simp only; rw [a10]
  · simp only; rw [a11]


/-- **C63, the final equation.** Let `x`, `y` be the values in the commitments of the quadratic
variables (G and H side) and `t` the value of `w`, committed on the G side only.  They satisfy the
quadratic statement that the verifier derives exactly when their `finalDefect` vanishes. -/
theorem C63_final_equation (E : Env F G) (tie : List (CompIter F) → ℕ) (v : ReadyToVerify F G)
    (vd : VerifierData F G E.St) (wCom : G) (r1 r2 u rho : F) (st1 st2 st3 st4 : E.St)
    (h1 : E.newChallenge vd.mer (str "aggregateLinear") = (r1, st1))
    (h2 : E.newChallenge st1 (str "aggregateNorms") = (r2, st2))
    (h3 : E.newChallenge st2 (str "enforceNorm") = (u, st3))
    (h4 : E.newChallenge st3 (str "separareLinQuad") = (rho, st4)) (hr2 : r2 ≠ 0)
    (hne : vd.linConstr ≠ []) (hs : ∀ c ∈ vd.linConstr, Sorted c.terms)
    (hk : ∀ c ∈ vd.linConstr, ∀ k ∈ keys c.terms, k < vd.ix.w)
    (hlast : aggCoef vd.linConstr r1 (vd.ix.w - 1) ≠ 0)
    (hn : vd.normConstr.length = 10) (hI : NormBlocks vd.normConstr 260) (hw : 260 * 10 < vd.ix.w)
    (hw2 : vd.ix.w < 2 ^ 31) :
    ∃ v2, publicStatement E tie v vd wCom = .ok (v2, st4) ∧
      ∀ (x y : ℕ → F) (t : F),
        QuadSat v2.quadCnstr
            (fun i => (if i = vd.ix.w then t else x i * r2 ^ (i / 260)) - coef v2.deltaG i)
            (fun i => (if i = vd.ix.w then 0 else y i * r2 ^ (i / 260)) - coef v2.deltaH i)
          ↔ finalDefect vd.linConstr vd.normConstr x y t r1 r2 u rho = 0 := by
  obtain ⟨v2, bs, a1, a2, a3, a4, a5, a6, a7, a8, a9, a10⟩ := publicStatement_spec E tie v vd wCom r1 r2 u
    rho st1 st2 st3 st4 260 (by omega) h1 h2 h3 h4 hr2 hne hs hk hlast hn hI hw hw2
  refine ⟨v2, a1, ?_⟩
  intro x y t
  have hprod := scaled_product vd.normConstr 260 (by omega) hI r2 x y
  rw [hn] at hprod
  have hd : ((vd.normConstr.zip (pows r2 10)).map fun p => p.2 ^ 2 * quadDefect p.1 x y).sum
      = ((vd.normConstr.zip (pows r2 10)).map fun p =>
          p.2 ^ 2 * (p.1.indexes.map fun i => x i * y i).sum).sum
        - ((vd.normConstr.zip (pows r2 10)).map fun p => p.2 ^ 2 * p.1.equalsTo).sum := by
    generalize vd.normConstr.zip (pows r2 10) = L
    induction L with
    | nil => simp
    | cons p L ih =>
      simp only [List.map_cons, List.sum_cons]
      rw [ih]
      simp only [quadDefect]
      ring
  unfold finalDefect
  rw [hd]
  obtain ⟨N, hN⟩ : ∃ N, N = 260 * 10 := ⟨_, rfl⟩
  obtain ⟨w, hwd⟩ : ∃ w, w = vd.ix.w := ⟨_, rfl⟩
  simp only [← hN, ← hwd] at a6 a7 a8 hprod hw ⊢
  have hlt : ∀ i ∈ List.range N, i ≠ w := by
    intro i hi
    have := List.mem_range.1 hi
    omega
  have hmi : ∀ {i}, i ∈ List.range N → i ∈ List.range N ++ [w] := fun h => List.mem_append_left _ h
  unfold QuadSat
  rw [a6]
  simp only [List.map_append, List.sum_append, List.map_cons, List.map_nil, List.sum_cons,
    List.sum_nil, add_zero]
  rw [a7, a8, coef_tab_snoc N w (by omega) _ (by simp), coef_tab_snoc N w (by omega) _ (by simp)]
  simp only [if_true]
  have e1 : ((List.range N).map fun i =>
      ((if i = w then t else x i * r2 ^ (i / 260)) - coef (tab (List.range N ++ [w]) fun i =>
        if i = w then 0 else aggCoef vd.linConstr r1 i * (r2 ^ (i / 260))⁻¹ * -rho - u ^ i) i)
      * ((if i = w then 0 else y i * r2 ^ (i / 260)) - coef (tab (List.range N ++ [w]) fun i =>
        if i = w then -rho else u ^ i) i))
      = (List.range N).map fun i => (x i * r2 ^ (i / 260)
          - (aggCoef vd.linConstr r1 i * (r2 ^ (i / 260))⁻¹ * -rho - u ^ i))
          * (y i * r2 ^ (i / 260) - u ^ i) := by
    apply List.map_congr_left
    intro i hi
    rw [coef_tab_snoc N w (by omega) _ (hmi hi), coef_tab_snoc N w (by omega) _ (hmi hi)]
    simp only [if_neg (hlt i hi)]
  rw [e1, shifted_product (List.range N) (fun i => x i * r2 ^ (i / 260)) (fun i => y i * r2 ^ (i / 260))
    (fun i => aggCoef vd.linConstr r1 i * (r2 ^ (i / 260))⁻¹) (fun i => u ^ i) rho]
  have e2 : ((List.range N).map fun i => u ^ i * (r2 ^ (i / 260) * (y i - x i)))
      = (List.range N).map fun i => u ^ i * (y i * r2 ^ (i / 260) - x i * r2 ^ (i / 260)) := by
    apply List.map_congr_left
    intro i _
    ring
  have e3 : ((List.range N).map fun i => aggCoef vd.linConstr r1 i * (r2 ^ (i / 260))⁻¹
        * (y i * r2 ^ (i / 260)))
      = (List.range N).map fun i => aggCoef vd.linConstr r1 i * y i := by
    apply List.map_congr_left
    intro i _
    have : r2 ^ (i / 260) ≠ 0 := pow_ne_zero _ hr2
    field_simp
  rw [e2, e3, hprod, ← sub_eq_zero]
  apply Eq.congr _ rfl
  ring

omit [DecidableEq F] in
/-- A polynomial with more roots than its degree is zero. -/
theorem poly_zero (n : ℕ) (d : ℕ → F) (S : Finset F) (hS : n ≤ S.card)
    (h : ∀ r ∈ S, ((List.range n).map fun i => r ^ i * d i).sum = 0) : ∀ i < n, d i = 0 := by
  classical
  rcases Nat.eq_zero_or_pos n with rfl | hn
  · intro i hi; omega
  obtain ⟨P, hP⟩ : ∃ P : Polynomial F, P = ∑ i ∈ Finset.range n,
    Polynomial.C (d i) * Polynomial.X ^ i := ⟨_, rfl⟩
  have hcoeff : ∀ i < n, P.coeff i = d i := by
    intro i hi
    rw [hP, Polynomial.finset_sum_coeff, Finset.sum_eq_single i]
    · simp
    · intro j _ hj; rw [Polynomial.coeff_C_mul_X_pow, if_neg (Ne.symm hj)]
    · intro h; simp at h; omega
  have hdeg : P.natDegree ≤ n - 1 := by
    rw [hP]
    apply Polynomial.natDegree_sum_le_of_forall_le
    intro i hi
    have := Finset.mem_range.1 hi
    exact le_trans (Polynomial.natDegree_C_mul_X_pow_le _ _) (by omega)
  have heval : ∀ r ∈ S, P.eval r = 0 := by
    intro r hr
    rw [← h r hr, hP, Polynomial.eval_finsetSum, ← List.sum_toFinset _ List.nodup_range,
      List.toFinset_range]
    apply Finset.sum_congr rfl
    intro i _
    rw [Polynomial.eval_mul, Polynomial.eval_C, Polynomial.eval_pow, Polynomial.eval_X, mul_comm]
  have h0 : P = 0 := by
    apply Polynomial.eq_zero_of_natDegree_lt_card_of_eval_eq_zero' P S heval
    omega
  intro i hi
  rw [← hcoeff i hi, h0, Polynomial.coeff_zero]


omit [DecidableEq F] in
/-- The batched norm constraints as a polynomial in `r2`. -/
theorem normSum_range (norm : List (QuadConstraint F)) (hn : norm.length = 10) (x y : ℕ → F) (r : F) :
    ((norm.zip (pows r 10)).map fun p => p.2 ^ 2 * quadDefect p.1 x y).sum
      = ((List.range 10).map fun k => r ^ (2 * k) * quadDefect (norm.getD k ⟨[], 0⟩) x y).sum := by
  congr 1
  apply List.ext_getElem
  · simp [pows, hn]
  · intro k h1 h2
    have hk : k < norm.length := by rw [hn]; simpa using h2
    simp [pows, List.getD_eq_getElem?_getD, List.getElem?_eq_getElem hk, pow_mul, mul_comm]

omit [DecidableEq F] in
/-- Even powers. -/
theorem even_range (d : ℕ → F) (e r : F) :
    ((List.range 19).map fun i => r ^ i * ((if i % 2 = 0 then d (i / 2) else 0)
        + if i = 0 then e else 0)).sum
      = ((List.range 10).map fun k => r ^ (2 * k) * d k).sum + e := by
  simp [List.range_succ]
  ring

omit [DecidableEq F] in
/-- Adding a constant to a polynomial. -/
theorem const_range (n : ℕ) (hn : 0 < n) (d : ℕ → F) (e r : F) :
    ((List.range n).map fun i => r ^ i * (d i + if i = 0 then e else 0)).sum
      = ((List.range n).map fun i => r ^ i * d i).sum + e := by
  obtain ⟨m, rfl⟩ : ∃ m, n = m + 1 := ⟨n - 1, by omega⟩
  rw [List.range_succ_eq_map]
  simp only [List.map_cons, List.sum_cons, List.map_map, if_true, pow_zero, one_mul]
  have : ((List.range m).map ((fun i => r ^ i * (d i + if i = 0 then e else 0)) ∘ Nat.succ))
      = (List.range m).map ((fun i => r ^ i * d i) ∘ Nat.succ) := by
    apply List.map_congr_left
    intro i _
    simp
  rw [this]
  ring

/-- The aggregated linear constraint as a polynomial in `r1`. -/
theorem aggDefect_range (cs : List (LinConstraint F)) (r : F) (hs : ∀ c ∈ cs, Sorted c.terms) (w : ℕ)
    (hk : ∀ c ∈ cs, ∀ k ∈ keys c.terms, k < w) (z : ℕ → F) :
    ((List.range w).map fun i => aggCoef cs r i * z i).sum - aggRhs cs r
      = ((List.range cs.length).map fun k => r ^ k * (if (cs.getD k ⟨[], 0⟩).terms.length ≠ 0 then
          linDefect (cs.getD k ⟨[], 0⟩) z else 0)).sum := by
  rw [aggDefect cs r hs w hk z]
  have key : ∀ L : List (LinConstraint F × F),
      ((L.filter fun p => p.1.terms.length ≠ 0).map fun p => p.2 * linDefect p.1 z).sum
        = (L.map fun p => p.2 * (if p.1.terms.length ≠ 0 then linDefect p.1 z else 0)).sum := by
    intro L
    induction L with
    | nil => simp
    | cons p L ih =>
      by_cases hp : p.1.terms.length = 0
      · rw [List.filter_cons_of_neg (by simpa using hp), ih, List.map_cons, List.sum_cons,
          if_neg (not_not.2 hp), mul_zero, zero_add]
      · rw [List.filter_cons_of_pos (by simpa using hp), List.map_cons, List.sum_cons, ih,
          List.map_cons, List.sum_cons, if_pos hp]
  rw [key]
  congr 1
  apply List.ext_getElem
  · simp [pows]
  · intro k h1 h2
    have hk : k < cs.length := by simpa using h2
    simp [pows, List.getD_eq_getElem?_getD, List.getElem?_eq_getElem hk]

/-- **C63, what the final equation enforces.** Suppose the values satisfy the final equation for
sufficiently many challenges of each kind (`t r1` being the value of `w` that the linear proof enforces).
Then
* `y i = x i` for the quadratic variables other than variable 0;
* `y` (with the linear-only variables from `x`) satisfies the linear constraints;
* the norm constraints of all blocks but block 0 hold;
* of the norm constraint of block 0, only `x₀·y₀ + Σ_{0<i<260} y_i² + (y₀ - x₀) = bound` is left. -/
theorem C63_enforced (lin : List (LinConstraint F)) (norm : List (QuadConstraint F))
    (hs : ∀ c ∈ lin, Sorted c.terms) (w : ℕ) (hk : ∀ c ∈ lin, ∀ k ∈ keys c.terms, k < w)
    (hw : 260 * 10 ≤ w) (hn : norm.length = 10) (hI : NormBlocks norm 260) (x y : ℕ → F) (t : F → F)
    (ht : ∀ r1, t r1 = ((List.range' (260 * 10) (w - 260 * 10)).map fun i => aggCoef lin r1 i * x i).sum)
    (Q : Finset F) (R : F → Finset F) (S : F → F → Finset F) (T : F → F → F → Finset F)
    (hQ0 : 0 < Q.card) (hQ : lin.length ≤ Q.card)
    (hR : ∀ r1 ∈ Q, 19 ≤ (R r1).card) (hR0 : ∀ r1 ∈ Q, 0 ∉ R r1)
    (hS : ∀ r1 ∈ Q, ∀ r2 ∈ R r1, 260 * 10 ≤ (S r1 r2).card)
    (hT : ∀ r1 ∈ Q, ∀ r2 ∈ R r1, ∀ u ∈ S r1 r2, 2 ≤ (T r1 r2 u).card)
    (h : ∀ r1 ∈ Q, ∀ r2 ∈ R r1, ∀ u ∈ S r1 r2, ∀ rho ∈ T r1 r2 u,
      finalDefect lin norm x y (t r1) r1 r2 u rho = 0) :
    (∀ i, 0 < i → i < 260 * 10 → y i = x i) ∧
    (∀ c ∈ lin, c.terms ≠ [] → LinSat c fun i => if i < 260 * 10 then y i else x i) ∧
    (∀ k (hk : k < norm.length), 0 < k → QuadSat norm[k] y y) ∧
    x 0 * y 0 + ((List.range' 1 259).map fun i => y i * y i).sum + (y 0 - x 0)
      = (norm.getD 0 ⟨[], 0⟩).equalsTo := by
  unfold finalDefect at h
  obtain ⟨N, hN⟩ : ∃ N, N = 260 * 10 := ⟨_, rfl⟩
  simp only [← hN] at hw ht hS h ⊢
  have hN0 : 0 < N := by omega
  -- the two parts of the equation
  have hL : ∀ r1 ∈ Q, ∀ r2 ∈ R r1, ∀ u ∈ S r1 r2,
      ((List.range N).map fun i => aggCoef lin r1 i * y i).sum + t r1 - aggRhs lin r1 = 0 ∧
      ((norm.zip (pows r2 10)).map fun p => p.2 ^ 2 * quadDefect p.1 x y).sum
        + ((List.range N).map fun i => u ^ i * (r2 ^ (i / 260) * (y i - x i))).sum = 0 := by
    intro r1 h1 r2 h2 u h3
    obtain ⟨a, ha, b, hb, hab⟩ := Finset.one_lt_card.1 (hT r1 h1 r2 h2 u h3)
    have ea := h r1 h1 r2 h2 u h3 a ha
    have eb := h r1 h1 r2 h2 u h3 b hb
    have hz : ((List.range N).map fun i => aggCoef lin r1 i * y i).sum + t r1 - aggRhs lin r1 = 0 := by
      have : (a - b) * (((List.range N).map fun i => aggCoef lin r1 i * y i).sum + t r1
          - aggRhs lin r1) = 0 := by
        linear_combination ea - eb
      rcases mul_eq_zero.1 this with h | h
      · exact absurd (sub_eq_zero.1 h) hab
      · exact h
    refine ⟨hz, ?_⟩
    rw [hz] at ea
    linear_combination ea
  -- the powers of `u`
  have hU : ∀ r1 ∈ Q, ∀ r2 ∈ R r1, (∀ i, 0 < i → i < N → y i = x i) ∧
      ((norm.zip (pows r2 10)).map fun p => p.2 ^ 2 * quadDefect p.1 x y).sum + (y 0 - x 0) = 0 := by
    intro r1 h1 r2 h2
    have hr2 : r2 ≠ 0 := fun e => hR0 r1 h1 (e ▸ h2)
    have hz := poly_zero N (fun i => r2 ^ (i / 260) * (y i - x i) + if i = 0 then
      ((norm.zip (pows r2 10)).map fun p => p.2 ^ 2 * quadDefect p.1 x y).sum else 0) (S r1 r2)
      (hS r1 h1 r2 h2) (fun u hu => by
        rw [const_range N hN0, add_comm]
        exact (hL r1 h1 r2 h2 u hu).2)
    constructor
    · intro i hi hiN
      have := hz i hiN
      simp only [if_neg (show ¬ i = 0 by omega), add_zero] at this
      rcases mul_eq_zero.1 this with h | h
      · exact absurd h (pow_ne_zero _ hr2)
      · exact sub_eq_zero.1 h
    · have := hz 0 hN0
      simp only [if_true, Nat.zero_div, pow_zero, one_mul] at this
      rw [add_comm]; exact this
  obtain ⟨q, hq⟩ := Finset.card_pos.1 hQ0
  obtain ⟨r0, hr0⟩ := Finset.card_pos.1 (lt_of_lt_of_le (by omega) (hR q hq))
  have hxy := (hU q hq r0 hr0).1
  -- the powers of `r2`
  have hD := poly_zero 19 (fun i => (if i % 2 = 0 then quadDefect (norm.getD (i / 2) ⟨[], 0⟩) x y else 0)
      + if i = 0 then y 0 - x 0 else 0) (R q) (hR q hq) (fun r hr => by
    rw [even_range (fun k => quadDefect (norm.getD k ⟨[], 0⟩) x y), ← normSum_range norm hn]
    exact (hU q hq r hr).2)
  refine ⟨hxy, ?_, ?_, ?_⟩
  · -- linear constraints
    intro c hc hne
    obtain ⟨k, hkl, rfl⟩ := List.getElem_of_mem hc
    have hz := poly_zero lin.length (fun k => if (lin.getD k ⟨[], 0⟩).terms.length ≠ 0 then
          linDefect (lin.getD k ⟨[], 0⟩) (fun i => if i < N then y i else x i) else 0) Q hQ (fun r hr => by
      rw [← aggDefect_range lin r hs w hk, aggLin_split lin r N w hw]
      obtain ⟨r2, hr2⟩ := Finset.card_pos.1 (lt_of_lt_of_le (by omega) (hR r hr))
      obtain ⟨u, hu⟩ := Finset.card_pos.1 (lt_of_lt_of_le hN0 (hS r hr r2 hr2))
      have hl := (hL r hr r2 hr2 u hu).1
      rw [ht] at hl
      have e1 : ((List.range N).map fun i => aggCoef lin r i * if i < N then y i else x i)
          = (List.range N).map fun i => aggCoef lin r i * y i := by
        apply List.map_congr_left
        intro i hi
        rw [if_pos (List.mem_range.1 hi)]
      have e2 : wValue lin r N w (fun i => if i < N then y i else x i)
          = ((List.range' N (w - N)).map fun i => aggCoef lin r i * x i).sum := by
        unfold wValue
        congr 1
        apply List.map_congr_left
        intro i hi
        rw [List.mem_range'_1] at hi
        simp only
        rw [if_neg (by omega)]
      rw [e1, e2]
      exact hl) k hkl
    have hg : lin.getD k ⟨[], 0⟩ = lin[k] := by
      rw [List.getD_eq_getElem?_getD, List.getElem?_eq_getElem hkl]; rfl
    simp only [hg] at hz
    rw [if_pos (by simpa using hne)] at hz
    exact (linSat_iff _ _).2 hz
  · intro k hk hk0
    have hz := hD (2 * k) (by omega)
    simp only [if_neg (show ¬ 2 * k = 0 by omega), Nat.mul_mod_right, if_true, add_zero,
      Nat.mul_div_cancel_left k (show 0 < 2 by omega)] at hz
    have hg : norm.getD k ⟨[], 0⟩ = norm[k] := by
      rw [List.getD_eq_getElem?_getD, List.getElem?_eq_getElem hk]; rfl
    rw [hg] at hz
    unfold QuadSat
    rw [← sub_eq_zero]
    unfold quadDefect at hz
    rw [← hz]
    congr 2
    apply List.map_congr_left
    intro i hi
    rw [hI k hk, List.mem_range'_1] at hi
    rw [hxy i (by omega) (by omega)]
  · have hz := hD 0 (by omega)
    simp only [if_true, Nat.zero_mod, Nat.zero_div] at hz
    have h0 : 0 < norm.length := by omega
    have hg : norm.getD 0 ⟨[], 0⟩ = norm[0] := by
      rw [List.getD_eq_getElem?_getD, List.getElem?_eq_getElem h0]; rfl
    rw [hg] at hz ⊢
    unfold quadDefect at hz
    have hb : norm[0].indexes = 0 :: List.range' 1 259 := by
      rw [hI 0 h0]
      exact List.range'_succ ..
    rw [hb, List.map_cons, List.sum_cons] at hz
    have e : ((List.range' 1 259).map fun i => x i * y i) = (List.range' 1 259).map fun i => y i * y i := by
      apply List.map_congr_left
      intro i hi
      rw [List.mem_range'_1] at hi
      rw [hxy i (by omega) (by omega)]
    rw [e] at hz
    linear_combination hz

/-- **C63, the converse.** Values with the four properties satisfy the final equation for all
challenges: nothing more is enforced. -/
theorem C63_enforced_conv (lin : List (LinConstraint F)) (norm : List (QuadConstraint F))
    (hs : ∀ c ∈ lin, Sorted c.terms) (w : ℕ) (hk : ∀ c ∈ lin, ∀ k ∈ keys c.terms, k < w)
    (hw : 260 * 10 ≤ w) (hn : norm.length = 10) (hI : NormBlocks norm 260) (x y : ℕ → F)
    (h1 : ∀ i, 0 < i → i < 260 * 10 → y i = x i)
    (h2 : ∀ c ∈ lin, c.terms ≠ [] → LinSat c fun i => if i < 260 * 10 then y i else x i)
    (h3 : ∀ k (hk : k < norm.length), 0 < k → QuadSat norm[k] y y)
    (h4 : x 0 * y 0 + ((List.range' 1 259).map fun i => y i * y i).sum + (y 0 - x 0)
      = (norm.getD 0 ⟨[], 0⟩).equalsTo) (r1 r2 u rho : F) :
    finalDefect lin norm x y
      ((List.range' (260 * 10) (w - 260 * 10)).map fun i => aggCoef lin r1 i * x i).sum r1 r2 u rho = 0 := by
  unfold finalDefect
  obtain ⟨N, hN⟩ : ∃ N, N = 260 * 10 := ⟨_, rfl⟩
  simp only [← hN] at hw h1 h2 ⊢
  have hN0 : 0 < N := by omega
  have hlin : ((List.range N).map fun i => aggCoef lin r1 i * y i).sum
      + ((List.range' N (w - N)).map fun i => aggCoef lin r1 i * x i).sum - aggRhs lin r1 = 0 := by
    have e0 := aggDefect_range lin r1 hs w hk (fun i => if i < N then y i else x i)
    rw [aggLin_split lin r1 N w hw] at e0
    have e1 : ((List.range N).map fun i => aggCoef lin r1 i * if i < N then y i else x i)
        = (List.range N).map fun i => aggCoef lin r1 i * y i := by
      apply List.map_congr_left
      intro i hi
      rw [if_pos (List.mem_range.1 hi)]
    have e2 : wValue lin r1 N w (fun i => if i < N then y i else x i)
        = ((List.range' N (w - N)).map fun i => aggCoef lin r1 i * x i).sum := by
      unfold wValue
      congr 1
      apply List.map_congr_left
      intro i hi
      rw [List.mem_range'_1] at hi
      simp only
      rw [if_neg (by omega)]
    rw [e1, e2] at e0
    rw [e0]
    apply List.sum_eq_zero
    intro z hz
    obtain ⟨k, hk, rfl⟩ := List.mem_map.1 hz
    have hk := List.mem_range.1 hk
    have hg : lin.getD k ⟨[], 0⟩ = lin[k] := by
      rw [List.getD_eq_getElem?_getD, List.getElem?_eq_getElem hk]; rfl
    rw [hg]
    split_ifs with hc
    · rw [(linSat_iff _ _).1 (h2 _ (List.getElem_mem hk) (by simpa using hc)), mul_zero]
    · rw [mul_zero]
  rw [hlin, mul_zero, add_zero, normSum_range norm hn]
  have hu : ((List.range N).map fun i => u ^ i * (r2 ^ (i / 260) * (y i - x i))).sum = y 0 - x 0 := by
    have := const_range N hN0 (fun i => r2 ^ (i / 260) * (y i - x i)) (-(y 0 - x 0)) u
    rw [← sub_eq_zero, sub_eq_add_neg, ← this]
    apply List.sum_eq_zero
    intro z hz
    obtain ⟨i, hi, rfl⟩ := List.mem_map.1 hz
    rcases Nat.eq_zero_or_pos i with rfl | hi0
    · simp
    · rw [h1 i hi0 (List.mem_range.1 hi), if_neg (by omega)]
      simp
  rw [hu]
  have hd : ∀ k, 0 < k → k < 10 → quadDefect (norm.getD k ⟨[], 0⟩) x y = 0 := by
    intro k hk0 hk
    rw [← hn] at hk
    have hg : norm.getD k ⟨[], 0⟩ = norm[k] := by
      rw [List.getD_eq_getElem?_getD, List.getElem?_eq_getElem hk]; rfl
    rw [hg]
    have := h3 k hk hk0
    unfold QuadSat at this
    unfold quadDefect
    rw [sub_eq_zero, ← this]
    congr 1
    apply List.map_congr_left
    intro i hi
    rw [hI k hk, List.mem_range'_1] at hi
    rw [h1 i (by omega) (by omega)]
  have h0 : quadDefect (norm.getD 0 ⟨[], 0⟩) x y + (y 0 - x 0) = 0 := by
    have h0 : 0 < norm.length := by omega
    have hg : norm.getD 0 ⟨[], 0⟩ = norm[0] := by
      rw [List.getD_eq_getElem?_getD, List.getElem?_eq_getElem h0]; rfl
    rw [hg] at h4 ⊢
    unfold quadDefect
    have hb : norm[0].indexes = 0 :: List.range' 1 259 := by
      rw [hI 0 h0]
      exact List.range'_succ ..
    rw [hb, List.map_cons, List.sum_cons]
    have e : ((List.range' 1 259).map fun i => x i * y i) = (List.range' 1 259).map fun i => y i * y i := by
      apply List.map_congr_left
      intro i hi
      rw [List.mem_range'_1] at hi
      rw [h1 i (by omega) (by omega)]
    rw [e]
    linear_combination h4
  rw [List.range_succ_eq_map]
  simp only [List.map_cons, List.sum_cons, Nat.mul_zero, pow_zero, one_mul, List.map_map]
  have hz : ((List.range 9).map ((fun k => r2 ^ (2 * k) * quadDefect (norm.getD k ⟨[], 0⟩) x y)
      ∘ Nat.succ)).sum = 0 := by
    apply List.sum_eq_zero
    intro z hz
    obtain ⟨k, hk, rfl⟩ := List.mem_map.1 hz
    have := List.mem_range.1 hk
    simp only [Function.comp]
    rw [hd (k + 1) (by omega) (by omega), mul_zero]
  rw [hz, add_zero]
  exact h0

end
section
variable {F G : Type} [Field F] [DecidableEq F] [AddCommGroup G] [Module F G] [DecidableEq G]

/-- **C63, acceptance.** Whatever the values `x`, `y` in the block commitments, if their `finalDefect`
vanishes for the challenges the verifier derives, there is a commitment to `w` and witnesses with which
the two final proofs are made and accepted. -/
theorem C63_acceptance (E : Env F G) (tie : List (CompIter F) → ℕ) (coinsL coinsQ : ℕ → F × F)
    (v : ReadyToVerify F G) (vd : VerifierData F G E.St) (kay enn tee : ℕ) (x y : ℕ → F) (rnd : Blocks F)
    (hix : IsLayout vd.ix kay 2 enn tee) (hw2 : vd.ix.w < 2 ^ 31) (hG : vd.Gs.length = vd.ix.w + 1)
    (hH : 260 * 10 ≤ vd.Hs.length) (hne : vd.linConstr ≠ []) (hs : ∀ c ∈ vd.linConstr, Sorted c.terms)
    (hk : ∀ c ∈ vd.linConstr, ∀ k ∈ keys c.terms, k < vd.ix.w)
    (hn : vd.normConstr.length = 10) (hI : NormBlocks vd.normConstr 260)
    (hO : BlocksOpen E.base vd.Gs vd.Hs x y vd.ix kay 2 enn tee vd.com rnd)
    (r1 r2 u rho : F) (st1 st2 st3 st4 : E.St)
    (h1 : E.newChallenge vd.mer (str "aggregateLinear") = (r1, st1))
    (h2 : E.newChallenge st1 (str "aggregateNorms") = (r2, st2))
    (h3 : E.newChallenge st2 (str "enforceNorm") = (u, st3))
    (h4 : E.newChallenge st3 (str "separareLinQuad") = (rho, st4))
    (hC : GoodChallenges vd x r1 r2)
    (hd : finalDefect vd.linConstr vd.normConstr x y
      ((List.range' (260 * 10) (vd.ix.w - 260 * 10)).map fun i => aggCoef vd.linConstr r1 i * x i).sum
      r1 r2 u rho = 0) :
    ∃ (wCom : G) (v' : ReadyToProve F G) (pd' : ProverData F),
      publicStatement E tie v vd wCom = .ok (v'.toReadyToVerify, st4) ∧
      (∀ rtv merL merQ pfL pfQ,
        finalProve E coinsL coinsQ v' { vd with mer := st4 } pd' = .ok (rtv, merL, merQ, pfL, pfQ) →
        rtv.linCom = v'.linCom ∧ rtv.quadCom = v'.quadCom ∧ pfL.C = v'.linCom ∧ pfQ.C = v'.quadCom ∧
        (finalVerifyLin E rtv merL pfL = .ok true ∨
          (finalVerifyLin E rtv merL pfL = .throw ∧ (deriveLin E pfL rtv.linGs.length merL).x = 0)) ∧
        finalVerifyQuad E rtv merQ pfQ = .ok true) ∧
      ((0 ∈ finalChallenges E coinsL coinsQ v' { vd with mer := st4 } pd' ∧
        finalProve E coinsL coinsQ v' { vd with mer := st4 } pd' = .throw) ∨
       (0 ∉ finalChallenges E coinsL coinsQ v' { vd with mer := st4 } pd' ∧
        ∃ out, finalProve E coinsL coinsQ v' { vd with mer := st4 } pd' = .ok out)) := by
  have hw := layout_w hix
  obtain ⟨t, htd⟩ : ∃ t, t = ((List.range' (260 * 10) (vd.ix.w - 260 * 10)).map fun i =>
    aggCoef vd.linConstr r1 i * x i).sum := ⟨_, rfl⟩
  rw [← htd] at hd
  obtain ⟨v2, bs, a1, a2, a3, a4, a5, a6, a7, a8, a9, a10⟩ := publicStatement_spec E tie v vd
    (t • vd.Gs.getD vd.ix.w 0) r1 r2 u
    rho st1 st2 st3 st4 260 (by omega) h1 h2 h3 h4 hC.r2 hne hs hk hC.last hn hI (by omega) hw2
  obtain ⟨v2', b1, b2⟩ := C63_final_equation E tie v vd (t • vd.Gs.getD vd.ix.w 0) r1 r2 u
    rho st1 st2 st3 st4 h1 h2 h3 h4 hC.r2 hne hs hk hC.last hn hI (by omega) hw2
  rw [a1] at b1
  have hvv : v2' = v2 := by
    have := Res.ok.inj b1
    exact (congrArg Prod.fst this).symm
  rw [hvv] at b2
  have hquad := (b2 x y t).2 hd
  have hq := hO.quad hix r2
  have hl := hO.lin hix
  obtain ⟨N, hN⟩ : ∃ N, N = 260 * 10 := ⟨_, rfl⟩
  obtain ⟨w, hwd⟩ : ∃ w, w = vd.ix.w := ⟨_, rfl⟩
  have hvis := hC.visible
  simp only [← hN, ← hwd] at hw hw2 hG hH htd a3 a4 a5 a6 a7 a8 a9 a10 hquad hq hl hvis
  have hlt : ∀ i ∈ List.range N, i ≠ w := by
    intro i hi
    have := List.mem_range.1 hi
    omega
  have hkb : keys (bs ++ [(w, (-1 : F))]) = keys bs ++ [w] := by simp [keys]
  have hbw : ∀ i ∈ keys bs, i ≠ w := fun i hi => by have := a3 i hi; omega
  have hsb : Sorted (bs ++ [(w, (-1 : F))]) := by
    have := mapPut_append bs w (-1 : F) (fun i hi => (a3 i hi).2)
    rw [← this]; exact mapPut_sorted _ a2 _ _
  have hmw : w ∈ List.range N ++ [w] := by simp
  have hmi : ∀ {i}, i ∈ List.range N → i ∈ List.range N ++ [w] := fun h => List.mem_append_left _ h
  obtain ⟨xl, hxl⟩ : ∃ xl : ℕ → F, xl = fun i => if i = w then t else x i := ⟨_, rfl⟩
  obtain ⟨xg, hxg⟩ : ∃ xg : ℕ → F, xg = fun i =>
    (if i = w then t else x i * r2 ^ (i / 260)) - coef v2.deltaG i := ⟨_, rfl⟩
  obtain ⟨xh, hxh⟩ : ∃ xh : ℕ → F, xh = fun i =>
    (if i = w then 0 else y i * r2 ^ (i / 260)) - coef v2.deltaH i := ⟨_, rfl⟩
  rw [← hxg, ← hxh] at hquad
  have htab : ∀ f : ℕ → F, tab (List.range N ++ [w]) f
      = tab (List.range N ++ [w]) (coef (tab (List.range N ++ [w]) f)) := by
    intro f
    apply tab_congr
    intro i hi
    rw [coef_tab_snoc N w (by omega) _ hi]
  have hacc := final_accepted E coinsL coinsQ
    ⟨v2, rnd.lins.sum, (List.zipWith (fun a b => b * a) (pows r2 10)
        (List.zipWith (· + ·) rnd.comps rnd.pads)).sum, [], [], []⟩ { vd with mer := st4 }
    ⟨rnd, [], tab (keys v2.linCnstr.terms) xl, tab (List.range N ++ [w]) xg, tab (List.range N ++ [w]) xh⟩
    N (by omega) (by simp only [← hwd]; omega) (by simp only [← hwd]; omega) (by simp only [← hwd]; exact hG) hH xl
    (coef v2.deltaG) (coef v2.deltaH) xg xh (by simp only [a5]; simp) (by simp only [a5]; exact hsb) ?_ ?_ rfl ?_ ?_
    (by rw [hwd]) (by rw [hwd]) ?_ hquad ?_ ?_
  · refine ⟨t • vd.Gs.getD w 0, _, _, ?_, hacc⟩
    rw [hwd]; exact a1
  · simp only [← hwd, a5]
    intro k hk
    rw [hkb] at hk
    rcases List.mem_append.1 hk with hk | hk
    · exact (a3 k hk).2.le
    · exact (List.mem_singleton.1 hk).le
  · simp only [← hwd, a6]
  · simp only [← hwd, a7]; exact htab _
  · simp only [← hwd, a8]; exact htab _
  · -- the linear constraint
    simp only [a5]
    unfold LinSat
    simp only [List.map_append, List.sum_append, List.map_cons, List.map_nil, List.sum_cons,
      List.sum_nil, add_zero]
    rw [hxl]
    simp only [if_true]
    have e : (bs.map fun p => p.2 * if p.1 = w then t else x p.1) = bs.map fun p => p.2 * x p.1 := by
      apply List.map_congr_left
      intro p hp
      have hpk : p.1 ∈ keys bs := List.mem_map.2 ⟨p, hp, rfl⟩
      rw [if_neg (hbw _ hpk)]
    rw [e, sum_eq_coef bs x (List.range' N (w - N)) List.nodup_range' (fun i hi => by
      have := a3 i hi
      rw [List.mem_range'_1]; omega)]
    have e2 : ((List.range' N (w - N)).map fun i => coef bs i * x i).sum = t := by
      rw [htd]
      congr 1
      apply List.map_congr_left
      intro i hi
      rw [List.mem_range'_1] at hi
      rw [a4 i hi.1]
    rw [e2]; ring
  · -- the linear commitment
    simp only [a9, hl, a5, hkb, List.map_append, List.sum_append]
    simp only [List.map_cons, List.map_nil, List.sum_cons, List.sum_nil, add_zero]
    rw [hxl]
    simp only [if_true]
    have e : ((keys bs).map fun i => (if i = w then t else x i) • vd.Gs.getD i 0).sum
        = ((List.range' N (w - N)).map fun i => x i • vd.Gs.getD i 0).sum := by
      have e1 : ((keys bs).map fun i => (if i = w then t else x i) • vd.Gs.getD i 0)
          = (keys bs).map fun i => x i • vd.Gs.getD i 0 := by
        apply List.map_congr_left
        intro i hi
        rw [if_neg (hbw i hi)]
      rw [e1]
      apply sum_subset_zero (nodup_keys a2) List.nodup_range'
      · intro i hi
        have := a3 i hi
        rw [List.mem_range'_1]; omega
      · intro i hi hn
        rw [List.mem_range'_1] at hi
        rcases hvis i (by omega) (by omega) with h | h
        · rw [h, zero_smul]
        · exfalso
          rw [← a4 i hi.1] at h
          exact h (coef_eq_zero _ _ hn)
    rw [e]
    module
  · -- the quadratic commitment
    simp only [a10, hq, ← hwd]
    rw [hxg, hxh]
    simp only [sub_add_cancel, if_true, zero_smul, add_zero]
    have e : ((List.range N).map fun i =>
        (if i = w then t else x i * r2 ^ (i / 260)) • vd.Gs.getD i 0
        + (if i = w then 0 else y i * r2 ^ (i / 260)) • vd.Hs.getD i 0)
        = (List.range N).map fun i => (x i * r2 ^ (i / 260)) • vd.Gs.getD i 0
            + (y i * r2 ^ (i / 260)) • vd.Hs.getD i 0 := by
      apply List.map_congr_left
      intro i hi
      rw [if_neg (hlt i hi), if_neg (hlt i hi)]
    rw [e]

/-- **C63, the norm bound of block 0 is not enforced.** Take any values `y` of the variables that satisfy
the linear constraints and the norm constraints of all blocks but block 0, with `y 0 ≠ 1`; the
norm of block 0 may be anything.  Commit to `y`, except that on the G side variable 0 gets the value
`x0` below, which depends on `y` and the bound only.  Then for all good challenges, the final
proofs can be made and are accepted. -/
theorem C63_norm0_not_enforced (E : Env F G) (tie : List (CompIter F) → ℕ) (coinsL coinsQ : ℕ → F × F)
    (v : ReadyToVerify F G) (vd : VerifierData F G E.St) (kay enn tee : ℕ) (y : ℕ → F) (rnd : Blocks F)
    (hix : IsLayout vd.ix kay 2 enn tee) (hw2 : vd.ix.w < 2 ^ 31) (hG : vd.Gs.length = vd.ix.w + 1)
    (hH : 260 * 10 ≤ vd.Hs.length) (hne : vd.linConstr ≠ []) (hs : ∀ c ∈ vd.linConstr, Sorted c.terms)
    (hk : ∀ c ∈ vd.linConstr, ∀ k ∈ keys c.terms, k < vd.ix.w)
    (hn : vd.normConstr.length = 10) (hI : NormBlocks vd.normConstr 260)
    (hlin : ∀ c ∈ vd.linConstr, LinSat c y)
    (hnorm : ∀ k (hk : k < vd.normConstr.length), 0 < k → QuadSat vd.normConstr[k] y y)
    (hy : y 0 ≠ 1) (x0 : F)
    (hx0 : x0 = ((vd.normConstr.getD 0 ⟨[], 0⟩).equalsTo - ((List.range' 1 259).map fun i => y i * y i).sum
      - y 0) / (y 0 - 1))
    (hO : BlocksOpen E.base vd.Gs vd.Hs (Function.update y 0 x0) y vd.ix kay 2 enn tee vd.com rnd)
    (r1 r2 u rho : F) (st1 st2 st3 st4 : E.St)
    (h1 : E.newChallenge vd.mer (str "aggregateLinear") = (r1, st1))
    (h2 : E.newChallenge st1 (str "aggregateNorms") = (r2, st2))
    (h3 : E.newChallenge st2 (str "enforceNorm") = (u, st3))
    (h4 : E.newChallenge st3 (str "separareLinQuad") = (rho, st4))
    (hC : GoodChallenges vd y r1 r2) :
    ∃ (wCom : G) (v' : ReadyToProve F G) (pd' : ProverData F),
      publicStatement E tie v vd wCom = .ok (v'.toReadyToVerify, st4) ∧
      (∀ rtv merL merQ pfL pfQ,
        finalProve E coinsL coinsQ v' { vd with mer := st4 } pd' = .ok (rtv, merL, merQ, pfL, pfQ) →
        rtv.linCom = v'.linCom ∧ rtv.quadCom = v'.quadCom ∧ pfL.C = v'.linCom ∧ pfQ.C = v'.quadCom ∧
        (finalVerifyLin E rtv merL pfL = .ok true ∨
          (finalVerifyLin E rtv merL pfL = .throw ∧ (deriveLin E pfL rtv.linGs.length merL).x = 0)) ∧
        finalVerifyQuad E rtv merQ pfQ = .ok true) ∧
      ((0 ∈ finalChallenges E coinsL coinsQ v' { vd with mer := st4 } pd' ∧
        finalProve E coinsL coinsQ v' { vd with mer := st4 } pd' = .throw) ∨
       (0 ∉ finalChallenges E coinsL coinsQ v' { vd with mer := st4 } pd' ∧
        ∃ out, finalProve E coinsL coinsQ v' { vd with mer := st4 } pd' = .ok out)) := by
  have hw := layout_w hix
  have hu : ∀ i, 0 < i → Function.update y 0 x0 i = y i := fun i hi =>
    Function.update_of_ne (by omega) _ _
  have hg : GoodChallenges vd (Function.update y 0 x0) r1 r2 :=
    ⟨hC.r2, hC.last, fun i h1 h2 => by rw [hu i (by omega)]; exact hC.visible i h1 h2⟩
  apply C63_acceptance E tie coinsL coinsQ v vd kay enn tee (Function.update y 0 x0) y rnd hix hw2 hG hH hne
    hs hk hn hI hO r1 r2 u rho st1 st2 st3 st4 h1 h2 h3 h4 hg
  apply C63_enforced_conv vd.linConstr vd.normConstr hs vd.ix.w hk (by omega) hn hI
  · intro i hi _
    rw [hu i hi]
  · intro c hc _
    have e : (fun i => if i < 260 * 10 then y i else Function.update y 0 x0 i) = y := by
      funext i
      split_ifs with h
      · rfl
      · exact hu i (by omega)
    rw [e]
    exact hlin c hc
  · exact hnorm
  · have : y 0 - 1 ≠ 0 := sub_ne_zero.2 hy
    rw [Function.update_self, hx0]
    field_simp
    ring

end
/-- The hypotheses of `C63_norm0_not_enforced` can be met with a violated norm constraint: here the
values are `y_i = i` and the bound of block 0 is 0. -/
example (kay enn tee : ℕ) (hs : (setIndexesNat kay 2 enn tee).w < 2 ^ 31) :
    ∃ (vd : VerifierData ℚ ℚ (toyEnv 2).St) (y : ℕ → ℚ) (x0 : ℚ) (rnd : Blocks ℚ),
      IsLayout vd.ix kay 2 enn tee ∧ (∀ c ∈ vd.linConstr, LinSat c y) ∧ vd.linConstr ≠ [] ∧
      vd.normConstr.length = 10 ∧ NormBlocks vd.normConstr 260 ∧
      (∀ k (hk : k < vd.normConstr.length), 0 < k → QuadSat vd.normConstr[k] y y) ∧
      (∀ hk : 0 < vd.normConstr.length, ¬ QuadSat vd.normConstr[0] y y) ∧ y 0 ≠ 1 ∧
      x0 = ((vd.normConstr.getD 0 ⟨[], 0⟩).equalsTo - ((List.range' 1 259).map fun i => y i * y i).sum
        - y 0) / (y 0 - 1) ∧
      BlocksOpen (toyEnv 2).base vd.Gs vd.Hs (Function.update y 0 x0) y vd.ix kay 2 enn tee vd.com rnd ∧
      GoodChallenges vd y 2 2 := by
  obtain ⟨ix, hix⟩ : ∃ ix, ix = setIndexesNat kay 2 enn tee := ⟨_, rfl⟩
  have hw : 260 * 10 + 128 ≤ ix.w := layout_w (Or.inl hix)
  obtain ⟨y, hy⟩ : ∃ y : ℕ → ℚ, y = fun i => if i < 260 * 10 ∨ i = ix.w - 1 then (i : ℚ) else 0 := ⟨_, rfl⟩
  have hy0 : y 0 = 0 := by rw [hy]; simp
  obtain ⟨bound, hb⟩ : ∃ bound : ℕ → ℚ, bound = fun k => if k = 0 then 0 else
    ((List.range' (260 * k) 260).map fun i => y i * y i).sum := ⟨_, rfl⟩
  obtain ⟨x0, hx0⟩ : ∃ x0 : ℚ, x0 = (0 - ((List.range' 1 259).map fun i => y i * y i).sum - y 0)
    / (y 0 - 1) := ⟨_, rfl⟩
  obtain ⟨Gs, hGs⟩ : ∃ Gs : List ℚ, Gs = List.replicate (ix.w + 1) 3 := ⟨_, rfl⟩
  obtain ⟨Hs, hHs⟩ : ∃ Hs : List ℚ, Hs = List.replicate (260 * 10) 5 := ⟨_, rfl⟩
  obtain ⟨rnd, hrnd⟩ : ∃ rnd : Blocks ℚ, rnd = ⟨1, 2, 3, 4, 5, 6, 7, 8, 9, 10, 11, 12, 13, 14, 15, 16, 17,
    18, 19, 20, 21, 22, 23, 24, 25, 26, 27⟩ := ⟨_, rfl⟩
  have hopen := demoCom_open (toyEnv 2).base Gs Hs (Function.update y 0 x0) y ix kay 2 enn tee rnd
  generalize demoCom (toyEnv 2).base Gs Hs (Function.update y 0 x0) y ix kay 2 enn tee rnd = com at hopen
  refine ⟨demoVd [] Gs Hs ix com y bound, y, x0, rnd, Or.inl hix, ?_, by simp [demoVd],
    by simp [demoVd], ?_, ?_, ?_, ?_, ?_, hopen, ?_⟩
  · intro c hc
    obtain rfl := List.mem_singleton.1 hc
    simp [LinSat]
  · intro k hk
    simp [demoVd]
  · intro k hk hk0
    have : (demoVd (St := (toyEnv 2).St) [] Gs Hs ix com y bound).normConstr[k] = ⟨List.range' (260 * k) 260, bound k⟩ := by
      simp [demoVd]
    rw [this]
    unfold QuadSat
    rw [hb]
    simp only [if_neg (show ¬ k = 0 by omega)]
  · intro hk
    have : (demoVd (St := (toyEnv 2).St) [] Gs Hs ix com y bound).normConstr[0] = ⟨List.range' 0 260, 0⟩ := by
      simp [demoVd, hb]
    rw [this]
    unfold QuadSat
    have e : ((List.range' 0 260).map fun i => y i * y i)
        = (List.range' 0 260).map fun i : ℕ => (i : ℚ) * i := by
      apply List.map_congr_left
      intro i hi
      rw [List.mem_range'_1] at hi
      rw [hy]
      simp only
      rw [if_pos (by omega)]
    simp only [e]
    decide +kernel
  · rw [hy0]; norm_num
  · rw [hx0]
    simp [demoVd, hb]
  · refine ⟨by norm_num, ?_, ?_⟩
    · simp only [demoVd, aggCoef, pows, coef]
      have h7 : ¬ 7 = ix.w - 1 := by omega
      simp [h7]
    · intro i h1 h2
      have h2 : i < ix.w := h2
      by_cases hi : i = ix.w - 1
      · right
        simp only [demoVd, aggCoef, pows, coef]
        have h7 : ¬ 7 = ix.w - 1 := by omega
        simp [hi, h7]
      · left
        rw [hy]
        simp only
        rw [if_neg (by omega)]

/-- The hypotheses of `C63_enforced` can be met: over the rationals, with one linear constraint
`2·x_7 + x_2600 = 14`, the values `x_i = i` for `i < 2600`, their norms as bounds, and 3000 challenges of each
kind. -/
example : ∃ (lin : List (LinConstraint ℚ)) (norm : List (QuadConstraint ℚ)) (x : ℕ → ℚ) (Q : Finset ℚ),
    (∀ c ∈ lin, Sorted c.terms) ∧ (∀ c ∈ lin, ∀ k ∈ keys c.terms, k < 260 * 10 + 128) ∧
    norm.length = 10 ∧ NormBlocks norm 260 ∧ lin.length ≤ Q.card ∧ 3000 ≤ Q.card ∧ 0 ∉ Q ∧ x 7 ≠ 0 ∧
    (∀ r1 ∈ Q, ∀ r2 ∈ Q, ∀ u ∈ Q, ∀ rho ∈ Q, finalDefect lin norm x x
      ((List.range' (260 * 10) (260 * 10 + 128 - 260 * 10)).map fun i => aggCoef lin r1 i * x i).sum
      r1 r2 u rho = 0) := by
  obtain ⟨N, hN⟩ : ∃ N, N = 260 * 10 := ⟨_, rfl⟩
  obtain ⟨M, hM⟩ : ∃ M, M = 3000 := ⟨_, rfl⟩
  obtain ⟨x, hx⟩ : ∃ x : ℕ → ℚ, x = fun i => if i < N then (i : ℚ) else 0 := ⟨_, rfl⟩
  have h7 : x 7 = 7 := by rw [hx]; simp only; rw [if_pos (by omega)]; norm_num
  have hxN : x N = 0 := by rw [hx]; simp
  have hl : Sorted ([(7, 2), (N, 1)] : PtxtVec ℚ) := by
    simp only [Sorted, List.pairwise_cons, List.mem_singleton, forall_eq, List.not_mem_nil,
      List.Pairwise.nil, and_true, false_imp_iff, implies_true]
    omega
  have hcard : ((Finset.range M).image fun n : ℕ => (n : ℚ) + 1).card = M := by
    rw [Finset.card_image_of_injective _ (fun a b h => by simpa using h), Finset.card_range]
  have hs1 : ∀ c ∈ [(⟨[(7, 2), (N, 1)], 14⟩ : LinConstraint ℚ)], Sorted c.terms := by
    intro c hc
    obtain rfl := List.mem_singleton.1 hc
    exact hl
  have hk1 : ∀ c ∈ [(⟨[(7, 2), (N, 1)], 14⟩ : LinConstraint ℚ)], ∀ k ∈ keys c.terms, k < 260 * 10 + 128 := by
    intro c hc k hk
    obtain rfl := List.mem_singleton.1 hc
    simp only [keys, List.map_cons, List.map_nil, List.mem_cons, List.not_mem_nil, or_false] at hk
    omega
  have hI : NormBlocks ((List.range 10).map fun k => (⟨List.range' (260 * k) 260,
      ((List.range' (260 * k) 260).map fun i => x i * x i).sum⟩ : QuadConstraint ℚ)) 260 := by
    intro k hk
    simp
  refine ⟨_, _, x, _, hs1, hk1, by simp, hI, ?_, by rw [hcard, hM], ?_, by rw [h7]; norm_num, ?_⟩
  · rw [hcard, hM]; simp
  · simp only [Finset.mem_image, not_exists, not_and]
    intro n _ h
    have : (0 : ℚ) ≤ n := Nat.cast_nonneg n
    linarith
  · intro r1 _ r2 _ u _ rho _
    apply C63_enforced_conv _ _ hs1 (260 * 10 + 128) hk1 (by omega) (by simp) hI
    · intro i _ _; rfl
    · intro c hc _
      obtain rfl := List.mem_singleton.1 hc
      have e : (fun i => if i < 260 * 10 then x i else x i) = x := by funext i; split_ifs <;> rfl
      rw [e]
      simp only [LinSat, List.map_cons, List.map_nil, List.sum_cons, List.sum_nil, h7, hxN]
      norm_num
    · intro k hk _
      unfold QuadSat
      simp
    · have h0 : (List.range' (260 * 0) 260) = 0 :: List.range' 1 259 := List.range'_succ ..
      simp only [List.range_succ_eq_map, List.map_cons, List.getD_cons_zero]
      rw [h0]
      simp only [List.map_cons, List.sum_cons]
      ring

end Verif.Props
