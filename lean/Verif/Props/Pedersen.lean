/-
Property theorems C01-C05: power-of-two helpers, subset products, folding, commitments.
-/
import Verif.Lemmas.Exp2
import Verif.Spec.Toy

namespace Verif.Props
open Verif Spec

/-! ### C01 -/

/-- C01.  For every size `1 ≤ n ≤ 2^63`, `log2roundUp n` is the exponent of the smallest power
of two `≥ n` and `next2power n` is that power. -/
theorem C01_pow2_helpers (n : Nat) (h1 : 1 ≤ n) (h2 : n ≤ 2 ^ 63) :
    IsLeast {e : Nat | n ≤ 2 ^ e} (log2roundUp n) ∧
    IsLeast {v : Nat | n ≤ v ∧ ∃ e, v = 2 ^ e} (next2power n) ∧
    next2power n = 2 ^ log2roundUp n := by
  have hle := log2roundUp_le h2
  refine ⟨⟨hle.2, fun e he => (log2roundUp_le_iff h2).2 he⟩, ⟨⟨?_, _, next2power_eq h1 h2⟩, ?_⟩,
    next2power_eq h1 h2⟩
  · rw [next2power_eq h1 h2]; exact hle.2
  · rintro v ⟨hv, e, rfl⟩
    rw [next2power_eq h1 h2]
    exact Nat.pow_le_pow_right (by omega) ((log2roundUp_le_iff h2).2 hv)

example : log2roundUp 5 = 3 ∧ next2power 5 = 8 := by decide +kernel

/-- C01, outside the range: `next2power` wraps to 0 at `0` and for every `n > 2^63`, and
`log2roundUp` returns 64 there. -/
theorem C01_pow2_helpers_wrap : next2power 0 = 0 ∧
    ∀ n, 2 ^ 63 < n → n < 2 ^ 64 → next2power n = 0 ∧ log2roundUp n = 64 := by
  refine ⟨by decide +kernel, fun n h1 h2 => ⟨?_, ?_⟩⟩
  · unfold next2power
    have hm : (n + (2 ^ 64 - 1)) % 2 ^ 64 = n - 1 := by omega
    rw [hm, smear_eq (k := 63) (by omega) (by omega) (by omega)]
    norm_num
  · have hs := log2roundUpFrom_spec n 64 0 (by intro j hj; omega) (by omega)
    rcases hs.1 with ⟨h3, h4⟩ | h3
    · exfalso
      have := Nat.pow_le_pow_right (n := 2) (by omega) (show log2roundUpFrom n 0 64 ≤ 63 by omega)
      omega
    · exact h3

section
variable {F G : Type} [Field F] [AddCommGroup G] [Module F G]

/-! ### C02 -/

/-- C02.  With `basisLen = log2roundUp n` basis scalars, `subsetProduct` succeeds and entry `i`
is `a` times the product of the basis scalars selected by the bits of `i`. -/
theorem C02_subset_products (n : Nat) (basis : List F) (a : F) (h2 : n ≤ 2 ^ 63)
    (hb : basis.length = log2roundUp n) :
    ∃ vec, subsetProduct n basis basis.length a = .ok vec ∧ vec.length = n ∧
      ∀ (i : Nat) (hi : i < vec.length), vec[i] = a * subsetProd basis i := by
  have hle := (log2roundUp_le h2).2
  rw [← hb] at hle
  refine ⟨_, subsetProduct_eq n basis basis.length a le_rfl h2 hle, ?_, ?_⟩
  · simp [hle]
  · intro i hi
    simp at hi
    simp only [List.take_length, List.getElem_map, List.getElem_take]
    rw [getElem_spL basis i (by omega)]

/-- C02, the multi-exponentiation: `expSubsetProduct` returns `Σ_i (z_i + o_i) G_i`, where
`z_i` is `a` times the subset product selected by `i` (and the offsets are optional). -/
theorem C02_exp_subset_product (n : Nat) (basis : List F) (a : F) (gs : List G) (off : Option (List F))
    (h2 : n ≤ 2 ^ 63) (hb : basis.length = log2roundUp n) (hg : gs.length = n)
    (ho : ∀ o, off = some o → o.length = n) :
    expSubsetProduct gs n basis a off =
      .ok (mexp ((List.range n).map (fun i => a * subsetProd basis i)) gs + mexp (off.getD []) gs) := by
  have key : a • foldedSum basis gs = mexp ((List.range n).map (fun i => a * subsetProd basis i)) gs := by
    unfold foldedSum
    rw [← mexp_smul_left, List.map_map, hg]
    congr 1
    apply List.map_congr_left
    intro i _
    simp [mul_comm]
  cases off with
  | none => rw [expSubsetProduct_none gs basis a hg.symm h2 hb.symm, key]; simp
  | some o =>
    rw [expSubsetProduct_some gs basis a o hg.symm h2 hb.symm (by have := ho o rfl; omega), key]
    simp

/-- A case with `n = 3`, not a power of two: entries `a·(1, x₁, x₀)`. -/
example : subsetProduct 3 [2, 3] 2 (5 : ℚ) = .ok [5, 15, 10] := by
  obtain ⟨vec, h1, h2, h3⟩ := C02_subset_products (F := ℚ) 3 [2, 3] 5 (by norm_num) (by decide +kernel)
  match vec, h2 with
  | [a, b, c], _ =>
    have e0 := h3 0 (by simp)
    have e1 := h3 1 (by simp)
    have e2 := h3 2 (by simp)
    simp [subsetProd, List.range_succ, Nat.testBit, Nat.shiftRight_eq_div_pow] at e0 e1 e2
    rw [show ([2, 3] : List ℚ).length = 2 from rfl] at h1
    rw [h1, e0, e1, e2]
    norm_num

/-! ### C03 -/

/-- C03.  Folding the generators one challenge at a time (`expSubsetProduct2`, which is the
loop of `foldGenerators` calls the provers run) and then multiplying by `a` gives the same point
as the verifiers' one-shot `expSubsetProduct`, for every `n ≥ 2`. -/
theorem C03_oneshot_eq_iterated (n : Nat) (xs : List F) (gs : List G) (a : F) (h1 : 2 ≤ n)
    (h2 : n ≤ 2 ^ 63) (hg : gs.length = n) (hx : xs.length = log2roundUp n) :
    ∃ p, expSubsetProduct2 gs n xs = .ok p ∧ expSubsetProduct gs n xs a none = .ok (a • p) :=
  ⟨_, expSubsetProduct2_eq h1 h2 hg hx, expSubsetProduct_none gs xs a hg.symm h2 hx.symm⟩

example : (2 : Nat) ≤ 5 ∧ ([1, 2, 3, 4, 5] : List ℚ).length = 5 ∧ ([7, 8, 9] : List ℚ).length = log2roundUp 5 := by
  refine ⟨by omega, rfl, by decide +kernel⟩

/-- C03, one level: `foldGenerators` sets `G_j := G_j + x·G_{j+h}` for `j < n-h` and leaves the
rest of the first half unchanged. -/
theorem C03_fold_generators (n h : Nat) (x : F) (gs : List G) (hg : gs.length = n) (h1 : h ≤ n)
    (h2 : n ≤ h + h) :
    ∃ l, foldGenerators gs n x h = .ok l ∧ l.length = n ∧
      ∀ j, j < h → l[j]? = if j + h < n then (do let a ← gs[j]?; let b ← gs[j + h]?; some (a + x • b))
        else gs[j]? := by
  obtain ⟨l, hl, ht, hlen⟩ := foldGenerators_ok (x := x) hg.symm h1 h2
  refine ⟨l, hl, hlen, fun j hj => ?_⟩
  have : l[j]? = (l.take h)[j]? := by rw [List.getElem?_take, if_pos hj]
  rw [this, ht, ← hg]
  exact getElem?_foldP h x gs j hj (by omega) (by omega)

/-- For one generator `expSubsetProduct2` is undefined (its shift count is `2^64-1`), while
`expSubsetProduct` returns `a·G_0`. -/
theorem C03_single_generator (g : G) (a : F) :
    expSubsetProduct2 [g] 1 ([] : List F) = .ub ∧ expSubsetProduct [g] 1 [] a none = .ok (a • g) := by
  have h1 : log2roundUp 1 = 0 := by decide +kernel
  constructor
  · simp [expSubsetProduct2, h1]
  · refine (expSubsetProduct_none [g] [] a (n := 1) rfl (by norm_num) h1).trans ?_
    simp [foldedSum, subsetProd, List.range_succ]

/-! ### C04 -/

/-- C04.  A commitment to `n` values is `r·base + α·F + Σ x_i G_i`. -/
theorem C04_commit_value (base Fg : G) (gs : List G) (xs : List F) (r alpha : F)
    (hg : gs.length = xs.length) :
    commit base gs xs xs.length r Fg alpha = .ok (r • base + alpha • Fg + mexp xs gs) := by
  rw [commit, multiExp_ok hg.ge le_rfl, List.take_length, List.take_of_length_le hg.le]
  rfl

/-- C04.  `commit2` is the sum of the G-part and the H-part. -/
theorem C04_commit2_value (base Fg : G) (gs hs : List G) (xs ys : List F) (r alpha : F)
    (hg : gs.length = xs.length) (hh : hs.length = xs.length) (hy : ys.length = xs.length) :
    commit2 base gs xs hs ys xs.length r Fg alpha =
      .ok (r • base + alpha • Fg + mexp xs gs + mexp ys hs) := by
  rw [commit2, multiExp_ok hg.ge le_rfl, multiExp_ok hh.ge hy.ge, List.take_length,
    List.take_of_length_le hg.le, List.take_of_length_le hh.le, List.take_of_length_le hy.le]
  rfl

/-- C04.  Commitments are additively homomorphic in values, randomness and `α`. -/
theorem C04_homomorphic (base Fg : G) (gs : List G) (xs ys : List F) (r s alpha beta c : F)
    (hg : gs.length = xs.length) (hy : ys.length = xs.length) :
    ∃ p q, commit base gs xs xs.length r Fg alpha = .ok p ∧
      commit base gs ys ys.length s Fg beta = .ok q ∧
      commit base gs (List.zipWith (· + ·) xs ys) xs.length (r + s) Fg (alpha + beta) = .ok (p + q) ∧
      commit base gs (xs.map (fun x => x * c)) xs.length (r * c) Fg (alpha * c) = .ok (c • p) := by
  refine ⟨_, _, C04_commit_value base Fg gs xs r alpha hg, C04_commit_value base Fg gs ys s beta (by omega), ?_, ?_⟩
  · have := C04_commit_value base Fg gs (List.zipWith (· + ·) xs ys) (r + s) (alpha + beta)
      (by simp [hg, hy])
    rw [show (List.zipWith (· + ·) xs ys).length = xs.length by simp [hy]] at this
    rw [this, ← addInto_eq_zipWith xs ys hy, mexp_addInto_left _ hy.le]
    congr 1
    module
  · have := C04_commit_value base Fg gs (xs.map (fun x => x * c)) (r * c) (alpha * c) (by simp [hg])
    rw [List.length_map] at this
    rw [this, mexp_smul_left]
    congr 1
    module

/-- C04.  `verifyCom` accepts exactly the recomputed commitment. -/
theorem C04_verify_iff [DecidableEq G] (base Fg c : G) (gs : List G) (xs : List F) (r alpha : F)
    (hg : gs.length = xs.length) :
    ∃ b, verifyCom base c gs xs xs.length r Fg alpha = .ok b ∧
      (b = true ↔ c = r • base + alpha • Fg + mexp xs gs) := by
  refine ⟨_, by rw [verifyCom, C04_commit_value base Fg gs xs r alpha hg]; rfl, ?_⟩
  rw [decide_eq_true_eq]; exact eq_comm

/-- C04.  `verifyCom2` accepts exactly the recomputed commitment. -/
theorem C04_verify2_iff [DecidableEq G] (base Fg c : G) (gs hs : List G) (xs ys : List F) (r alpha : F)
    (hg : gs.length = xs.length) (hh : hs.length = xs.length) (hy : ys.length = xs.length) :
    ∃ b, verifyCom2 base c gs xs hs ys xs.length r Fg alpha = .ok b ∧
      (b = true ↔ c = r • base + alpha • Fg + mexp xs gs + mexp ys hs) := by
  refine ⟨_, by rw [verifyCom2, C04_commit2_value base Fg gs hs xs ys r alpha hg hh hy]; rfl, ?_⟩
  rw [decide_eq_true_eq]; exact eq_comm

/-- Reading past an array is never hidden: with fewer generators (or values) than `n` the
commitment functions have undefined behaviour. -/
theorem C04_short_arrays (base Fg : G) (gs : List G) (xs : List F) (n : Nat) (r alpha : F)
    (h : gs.length < n ∨ xs.length < n) : commit base gs xs n r Fg alpha = .ub := by
  simp only [commit, multiExp, rdN]
  rcases h with h | h
  · rw [if_neg (by omega)]; rfl
  · by_cases hg : n ≤ gs.length
    · rw [if_pos hg, if_neg (by omega)]; rfl
    · rw [if_neg hg]; rfl

example : commit (1 : ℚ) [2, 3] [5, 7] 2 (11 : ℚ) = .ok 42 := by
  refine (C04_commit_value (G := ℚ) 1 0 [2, 3] [5, 7] 11 0 rfl).trans ?_
  norm_num [mexp]

/-! ### C05 -/

/-- A non-trivial linear relation between `base`, the generators and `F`. -/
def Relation (base Fg : G) (gs : List G) : Prop :=
  ∃ (c d : F) (es : List F), es.length = gs.length ∧ (c ≠ 0 ∨ d ≠ 0 ∨ ∃ e ∈ es, e ≠ 0) ∧
    c • base + d • Fg + mexp es gs = 0

/-- C05.  Two different openings of one commitment, both accepted by `verifyCom`: their difference is a
linear relation between the generators, and not the trivial one. -/
theorem C05_binding [DecidableEq G] (base Fg c : G) (gs : List G) (xs ys : List F) (r s alpha beta : F)
    (hg : gs.length = xs.length) (hy : ys.length = xs.length)
    (h1 : verifyCom base c gs xs xs.length r Fg alpha = .ok true)
    (h2 : verifyCom base c gs ys ys.length s Fg beta = .ok true)
    (hne : (xs, r, alpha) ≠ (ys, s, beta)) :
    (r - s) • base + (alpha - beta) • Fg + mexp (List.zipWith (· - ·) xs ys) gs = 0 ∧
    (r - s ≠ 0 ∨ alpha - beta ≠ 0 ∨ ∃ e ∈ List.zipWith (· - ·) xs ys, e ≠ 0) := by
  obtain ⟨b1, e1, i1⟩ := C04_verify_iff base Fg c gs xs r alpha hg
  obtain ⟨b2, e2, i2⟩ := C04_verify_iff base Fg c gs ys s beta (by omega)
  rw [h1] at e1
  rw [h2] at e2
  have c1 := i1.1 (Res.ok.inj e1).symm
  have c2 := i2.1 (Res.ok.inj e2).symm
  have hsub : ∀ (xs ys : List F) (gs : List G), ys.length = xs.length →
      mexp (List.zipWith (· - ·) xs ys) gs = mexp xs gs - mexp ys gs := by
    intro xs
    induction xs with
    | nil => intro ys gs h; obtain rfl := List.length_eq_zero_iff.1 h; simp [mexp]
    | cons x xs ih =>
      intro ys gs h
      cases ys with
      | nil => simp at h
      | cons y ys =>
        cases gs with
        | nil => simp [mexp]
        | cons g gs =>
          have := ih ys gs (by simpa using h)
          simp only [mexp, List.zipWith_cons_cons, List.sum_cons] at this ⊢
          rw [this]
          module
  refine ⟨?_, ?_⟩
  · rw [hsub _ _ _ hy]
    have := c1.symm.trans c2
    linear_combination (norm := module) this
  · by_contra hc
    push Not at hc
    obtain ⟨hr, ha, he⟩ := hc
    apply hne
    have : xs = ys := by
      apply List.ext_getElem hy.symm
      intro i hi1 hi2
      have := he ((List.zipWith (· - ·) xs ys)[i]'(by simp; omega)) (List.getElem_mem _)
      rw [List.getElem_zipWith] at this
      exact sub_eq_zero.1 this
    rw [this, sub_eq_zero.1 hr, sub_eq_zero.1 ha]

/-- C05, with independent generators: no relation, hence the opening is unique. -/
theorem C05_unique_opening [DecidableEq G] (base Fg c : G) (gs : List G) (xs ys : List F) (r s alpha beta : F)
    (hg : gs.length = xs.length) (hy : ys.length = xs.length)
    (hind : ¬ Relation (F := F) base Fg gs)
    (h1 : verifyCom base c gs xs xs.length r Fg alpha = .ok true)
    (h2 : verifyCom base c gs ys ys.length s Fg beta = .ok true) :
    xs = ys ∧ r = s ∧ alpha = beta := by
  by_contra hne
  obtain ⟨k1, k2⟩ := C05_binding base Fg c gs xs ys r s alpha beta hg hy h1 h2 (by
    intro h; simp only [Prod.mk.injEq] at h; exact hne h)
  exact hind ⟨_, _, _, by simp [hg, hy], k2, k1⟩

/-- Independent generators exist (three coordinate vectors of `ℚ³`), so the uniqueness theorem
is not vacuous. -/
example : ¬ Relation (F := ℚ) ((1, 0, 0) : ℚ × ℚ × ℚ) (0, 1, 0) [(0, 0, 1)] := by
  rintro ⟨c, d, es, hl, hne, h⟩
  match es, hl with
  | [e], _ =>
    simp [mexp, Prod.ext_iff] at h hne
    obtain ⟨h1, h2, h3⟩ := h
    subst h1 h2 h3
    simp at hne

/-- And the hypotheses of `C05_binding` are met when generators are dependent. -/
example : verifyCom (1 : ℚ) 3 [2] [1] 1 (1 : ℚ) = .ok true ∧ verifyCom (1 : ℚ) 3 [2] [0] 1 (3 : ℚ) = .ok true := by
  constructor
  · obtain ⟨b, h1, h2⟩ := C04_verify_iff (1 : ℚ) 0 3 [2] [1] 1 0 rfl
    have : b = true := h2.2 (by norm_num [mexp])
    rw [this] at h1; exact h1
  · obtain ⟨b, h1, h2⟩ := C04_verify_iff (1 : ℚ) 0 3 [2] [0] 3 0 rfl
    have : b = true := h2.2 (by norm_num [mexp])
    rw [this] at h1; exact h1

end

end Verif.Props
