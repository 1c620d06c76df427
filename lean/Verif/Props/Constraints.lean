/-
C15–C22: the constraint-manipulation API (constraints.hpp / constraints.cpp).
-/
import Verif.Lemmas.Constraints2
import Mathlib.Algebra.Polynomial.Roots
import Mathlib.Algebra.Field.Rat
import Mathlib.Data.Set.Card
import Mathlib.Tactic.NormNum

namespace Verif.Props
open Verif Verif.Spec

section
variable {F : Type} [Field F] [DecidableEq F]

/-- C15: `LinConstraint::merge` is the linear combination, whatever order the priority
queue returns equal elements in: the coefficient at each index is `Σ_j coeffs_j·c_j[i]`.
The right-hand side is the same combination *of the constraints that have a term*. -/
theorem C15_merge (tie : List (CompIter F) → Nat) (cs : List (LinConstraint F)) (coeffs : List F)
    (hlen : cs.length = coeffs.length) (hs : ∀ c ∈ cs, Sorted c.terms) :
    ∃ c, LinConstraint.merge tie cs coeffs = .ok c ∧ Sorted c.terms ∧
      (∀ i, coef c.terms i = ((cs.zip coeffs).map fun p => p.2 * coef p.1.terms i).sum) ∧
      c.equalsTo = (((cs.zip coeffs).filter fun p => p.1.terms.length ≠ 0).map
        fun p => p.2 * p.1.equalsTo).sum := by
  obtain ⟨c, h1, h2, h3, h4, -⟩ := merge_spec tie cs coeffs hlen hs
  exact ⟨c, h1, h2, h3, h4⟩

/-- C15, when every constraint has a term: the right-hand side is the full combination. -/
theorem C15_merge_rhs (tie : List (CompIter F) → Nat) (cs : List (LinConstraint F)) (coeffs : List F)
    (hlen : cs.length = coeffs.length) (hs : ∀ c ∈ cs, Sorted c.terms)
    (hne : ∀ c ∈ cs, c.terms ≠ []) :
    ∃ c, LinConstraint.merge tie cs coeffs = .ok c ∧
      c.equalsTo = ((cs.zip coeffs).map fun p => p.2 * p.1.equalsTo).sum := by
  obtain ⟨c, h1, h2, h3, h4, -⟩ := merge_spec tie cs coeffs hlen hs
  refine ⟨c, h1, ?_⟩
  rw [h4, List.filter_eq_self.2]
  intro p hp
  have := hne p.1 (List.of_mem_zip hp).1
  simpa using this

/-- C15: only the last term of the result can have a zero coefficient, and every index of
the result occurs in one of the inputs. -/
theorem C15_merge_terms (tie : List (CompIter F) → Nat) (cs : List (LinConstraint F)) (coeffs : List F)
    (hlen : cs.length = coeffs.length) (hs : ∀ c ∈ cs, Sorted c.terms) :
    ∃ c, LinConstraint.merge tie cs coeffs = .ok c ∧
      (∀ p ∈ c.terms.dropLast, p.2 ≠ 0) ∧
      (∀ i ∈ keys c.terms, ∃ d ∈ cs, i ∈ keys d.terms) := by
  obtain ⟨c, h1, h2, h3, h4, h5, h6⟩ := merge_spec tie cs coeffs hlen hs
  exact ⟨c, h1, h5, h6⟩

/-- C15: different sizes throw. -/
theorem C15_merge_mismatch (tie : List (CompIter F) → Nat) (cs : List (LinConstraint F))
    (coeffs : List F) (hlen : cs.length ≠ coeffs.length) :
    LinConstraint.merge tie cs coeffs = .throw := by
  unfold LinConstraint.merge; rw [if_pos hlen]

/-- C15, the disagreement with the documentation: a constraint without terms is dropped
together with its right-hand side, so merging the unsatisfiable `0 = b` alone gives the
trivially true `0 = 0`. -/
theorem C15_empty_dropped (tie : List (CompIter F) → Nat) (b x : F) :
    LinConstraint.merge tie [⟨[], b⟩] [x] = .ok ⟨[], 0⟩ := rfl

example : ∃ c, LinConstraint.merge (fun _ => 1) [⟨[(1, 2), (5, 3)], 7⟩, ⟨[(0, 1), (1, 4)], 2⟩] [2, (-1 : ℚ)]
    = .ok c ∧ coef c.terms 1 = 0 ∧ coef c.terms 5 = 6 ∧ c.equalsTo = 12 := by
  obtain ⟨c, h1, h2, h3, h4⟩ := C15_merge (fun _ => 1)
    [⟨[(1, 2), (5, 3)], 7⟩, ⟨[(0, 1), (1, 4)], 2⟩] [2, (-1 : ℚ)] rfl (by simp [Sorted])
  refine ⟨c, h1, ?_, ?_, ?_⟩
  · rw [h3]; norm_num [coef]
  · rw [h3]; norm_num [coef]
  · rw [h4]; simp [List.filter]; norm_num

/-- The value of the merged constraint's left- minus right-hand side. -/
theorem merge_defect (tie : List (CompIter F) → Nat) (cs : List (LinConstraint F)) (coeffs : List F)
    (hlen : cs.length = coeffs.length) (hs : ∀ c ∈ cs, Sorted c.terms) (x : Nat → F) :
    ∃ c, LinConstraint.merge tie cs coeffs = .ok c ∧
      linDefect c x = (((cs.zip coeffs).filter fun p => p.1.terms.length ≠ 0).map
        fun p => p.2 * linDefect p.1 x).sum := by
  obtain ⟨c, h1, h2, h3, h4, h5, h6⟩ := merge_spec tie cs coeffs hlen hs
  refine ⟨c, h1, ?_⟩
  have hI : ((cs.map fun c => keys c.terms).flatten.dedup).Nodup := List.nodup_dedup _
  have hk : ∀ c ∈ cs, ∀ i ∈ keys c.terms, i ∈ (cs.map fun c => keys c.terms).flatten.dedup := by
    intro c hc i hi
    rw [List.mem_dedup, List.mem_flatten]
    exact ⟨keys c.terms, List.mem_map.2 ⟨c, hc, rfl⟩, hi⟩
  have hsum : (c.terms.map fun p => p.2 * x p.1).sum
      = (((cs.zip coeffs).filter fun p => p.1.terms.length ≠ 0).map
          fun p => p.2 * (p.1.terms.map fun q => q.2 * x q.1).sum).sum := by
    rw [sum_eq_coef c.terms x _ hI (fun i hi => by
      obtain ⟨d, hd, hi⟩ := h6 i hi
      exact hk d hd i hi)]
    simp only [h3]
    rw [sum_zip_split cs coeffs x _ hI hk]
    have : ∀ l : List (LinConstraint F × F),
        (l.map fun p => p.2 * (p.1.terms.map fun q => q.2 * x q.1).sum).sum
        = ((l.filter fun p => p.1.terms.length ≠ 0).map
          fun p => p.2 * (p.1.terms.map fun q => q.2 * x q.1).sum).sum := by
      intro l
      induction l with
      | nil => rfl
      | cons p l ih =>
        by_cases h : p.1.terms.length = 0
        · rw [List.filter_cons_of_neg (by simpa using h), List.map_cons, List.sum_cons, ih,
            List.length_eq_zero_iff.1 h]
          simp
        · rw [List.filter_cons_of_pos (by simpa using h), List.map_cons, List.sum_cons, ih,
            List.map_cons, List.sum_cons]
    exact this _
  unfold linDefect
  rw [hsum, h4]
  generalize (cs.zip coeffs).filter (fun p => p.1.terms.length ≠ 0) = l
  induction l with
  | nil => simp
  | cons p l ih =>
    simp only [List.map_cons, List.sum_cons] at ih ⊢
    rw [← ih]; ring

omit [DecidableEq F] in
theorem linSat_iff (c : LinConstraint F) (x : Nat → F) : LinSat c x ↔ linDefect c x = 0 := by
  unfold LinSat linDefect; rw [sub_eq_zero]

/-- C16 (completeness): a witness that satisfies all constraints satisfies their merge. -/
theorem C16_merge_implied (tie : List (CompIter F) → Nat) (cs : List (LinConstraint F))
    (coeffs : List F) (hlen : cs.length = coeffs.length) (hs : ∀ c ∈ cs, Sorted c.terms)
    (x : Nat → F) (hx : ∀ c ∈ cs, LinSat c x) :
    ∃ c, LinConstraint.merge tie cs coeffs = .ok c ∧ LinSat c x := by
  obtain ⟨c, h1, h2⟩ := merge_defect tie cs coeffs hlen hs x
  refine ⟨c, h1, ?_⟩
  rw [linSat_iff, h2]
  apply List.sum_eq_zero
  intro y hy
  obtain ⟨p, hp, rfl⟩ := List.mem_map.1 hy
  rw [(linSat_iff _ _).1 (hx p.1 (List.of_mem_zip (List.mem_filter.1 hp).1).1), mul_zero]

/-- C16 (soundness of batching by powers): if a witness violates one of `k` constraints
(each with at least one term), then at most `k-1` scalars `r` make it satisfy the merge
with coefficients `1, r, r², …, r^(k-1)`. -/
theorem C16_merge_sound (tie : List (CompIter F) → Nat) (cs : List (LinConstraint F))
    (hs : ∀ c ∈ cs, Sorted c.terms) (hne : ∀ c ∈ cs, c.terms ≠ [])
    (x : Nat → F) (hx : ∃ c ∈ cs, ¬ LinSat c x) :
    {r : F | ∃ c, LinConstraint.merge tie cs ((List.range cs.length).map (r ^ ·)) = .ok c ∧
        LinSat c x}.Finite ∧
    {r : F | ∃ c, LinConstraint.merge tie cs ((List.range cs.length).map (r ^ ·)) = .ok c ∧
        LinSat c x}.ncard ≤ cs.length - 1 := by
  classical
  -- the polynomial of the defects
  obtain ⟨P, hP⟩ : ∃ P : Polynomial F, P = ∑ i ∈ Finset.range cs.length,
    Polynomial.C ((cs[i]?.map fun c => linDefect c x).getD 0) * Polynomial.X ^ i := ⟨_, rfl⟩
  have hcoeff : ∀ i (hi : i < cs.length), P.coeff i = linDefect cs[i] x := by
    intro i hi
    rw [hP, Polynomial.finset_sum_coeff, Finset.sum_eq_single i]
    · simp [hi]
    · intro j _ hj; rw [Polynomial.coeff_C_mul_X_pow, if_neg (Ne.symm hj)]
    · intro h; simp at h; omega
  have hP0 : P ≠ 0 := by
    obtain ⟨c, hc, hcx⟩ := hx
    obtain ⟨i, hi, rfl⟩ := List.getElem_of_mem hc
    intro h
    apply hcx
    rw [linSat_iff, ← hcoeff i hi, h, Polynomial.coeff_zero]
  have hpos : 0 < cs.length := by
    obtain ⟨c, hc, -⟩ := hx
    exact List.length_pos_of_mem hc
  have hdeg : P.natDegree ≤ cs.length - 1 := by
    rw [hP]
    apply Polynomial.natDegree_sum_le_of_forall_le
    intro i hi
    have := Finset.mem_range.1 hi
    exact le_trans (Polynomial.natDegree_C_mul_X_pow_le _ _) (by omega)
  have heval : ∀ r : F, P.eval r = ((cs.zip ((List.range cs.length).map (r ^ ·))).map
      fun p => p.2 * linDefect p.1 x).sum := by
    intro r
    rw [hP, Polynomial.eval_finset_sum]
    have hz : (cs.zip ((List.range cs.length).map (r ^ ·))).map (fun p => p.2 * linDefect p.1 x)
        = (List.range cs.length).map fun i => ((cs[i]?.map fun c => linDefect c x).getD 0) * r ^ i := by
      apply List.ext_getElem
      · simp
      · intro i h1 h2
        have hi : i < cs.length := by simpa using h2
        simp [hi, mul_comm]
    rw [hz, ← List.sum_toFinset]
    · simp [List.toFinset_range]
    · exact List.nodup_range
  have hsub : {r : F | ∃ c, LinConstraint.merge tie cs ((List.range cs.length).map (r ^ ·)) = .ok c ∧
        LinSat c x} ⊆ (P.roots.toFinset : Set F) := by
    rintro r ⟨c, hc, hsat⟩
    obtain ⟨c', hc', hd⟩ := merge_defect tie cs ((List.range cs.length).map (r ^ ·)) (by simp) hs x
    rw [hc] at hc'
    cases hc'
    rw [List.filter_eq_self.2 (by
      intro p hp
      have := hne p.1 (List.of_mem_zip hp).1
      simpa using this), ← heval, (linSat_iff _ _).1 hsat] at hd
    simp only [Finset.mem_coe, Multiset.mem_toFinset, Polynomial.mem_roots hP0, Polynomial.IsRoot.def]
    exact hd.symm
  refine ⟨(Finset.finite_toSet _).subset hsub, ?_⟩
  refine le_trans (Set.ncard_le_ncard hsub (Finset.finite_toSet _)) ?_
  rw [Set.ncard_coe_finset]
  exact le_trans (Multiset.toFinset_card_le _) (le_trans (Polynomial.card_roots' P) hdeg)

/-- the hypotheses of C16_merge_sound are met by an actual violated batch -/
example : ∃ c ∈ [(⟨[(1, 2)], 4⟩ : LinConstraint ℚ), ⟨[(1, 1), (3, 1)], 5⟩],
    ¬ LinSat c (fun i => if i = 1 then 2 else 4) := by
  refine ⟨⟨[(1, 1), (3, 1)], 5⟩, by simp, ?_⟩
  norm_num [LinSat]

/-- C17: the sparse inner product is the sum over the indexes present in both maps of the
products, equivalently the sum over all indexes below any common bound. -/
theorem C17_innerProduct (v1 v2 : PtxtVec F) (h1 : Sorted v1) (h2 : Sorted v2) :
    innerProductMap v1 v2 = (((keys v1).filter fun i => i ∈ keys v2).map
      fun i => coef v1 i * coef v2 i).sum := by
  unfold innerProductMap
  rw [innerProductMapLoop_eq v1 v2 0 h1 h2, zero_add,
    sum_eq_coef v1 (coef v2) (keys v1) (nodup_keys h1) (fun _ h => h)]
  generalize keys v1 = I
  induction I with
  | nil => rfl
  | cons i I ih =>
    by_cases h : i ∈ keys v2
    · rw [List.filter_cons_of_pos (by simpa using h), List.map_cons, List.sum_cons, ih,
        List.map_cons, List.sum_cons]
    · rw [List.filter_cons_of_neg (by simpa using h), List.map_cons, List.sum_cons, ih,
        coef_eq_zero v2 i h, mul_zero, zero_add]

/-- C17: symmetry. -/
theorem C17_symm (v1 v2 : PtxtVec F) (h1 : Sorted v1) (h2 : Sorted v2) :
    innerProductMap v1 v2 = innerProductMap v2 v1 := by
  unfold innerProductMap
  rw [innerProductMapLoop_eq v1 v2 0 h1 h2, innerProductMapLoop_eq v2 v1 0 h2 h1, sum_coef_comm]

/-- C17: with an assignment covering the constraint, the inner product is the value of the
left-hand side of the constraint. -/
theorem C17_value (terms : PtxtVec F) (w : PtxtVec F) (h1 : Sorted terms) (h2 : Sorted w) :
    innerProductMap terms w = (terms.map fun p => p.2 * coef w p.1).sum := by
  unfold innerProductMap
  rw [innerProductMapLoop_eq terms w 0 h1 h2, zero_add]

example : innerProductMap [(1, 2), (3, 5), (8, 1)] [(0, 9), (3, 4), (8, (10 : ℚ))] = 30 := by
  rw [C17_innerProduct _ _ (by simp [Sorted]) (by simp [Sorted])]
  norm_num [keys, coef]

/-- C18: `QuadConstraint::merge` returns the union of the index sets and
`Σ_j coeffs_j²·equalsTo_j`; different sizes throw. -/
theorem C18_merge (cs : List (QuadConstraint F)) (coeffs : List F) :
    (cs.length ≠ coeffs.length → QuadConstraint.merge cs coeffs = .throw) ∧
    (cs.length = coeffs.length → ∃ c, QuadConstraint.merge cs coeffs = .ok c ∧
      SortedSet c.indexes ∧ (∀ i, i ∈ c.indexes ↔ ∃ d ∈ cs, i ∈ d.indexes) ∧
      c.equalsTo = ((cs.zip coeffs).map fun p => p.2 ^ 2 * p.1.equalsTo).sum) := by
  constructor
  · intro h; unfold QuadConstraint.merge; rw [if_pos h]
  · intro h
    obtain ⟨h1, h2, h3⟩ := quadMergeLoop_spec cs coeffs ⟨[], 0⟩ h (by simp [SortedSet])
    refine ⟨_, by unfold QuadConstraint.merge; rw [if_neg (by omega)], h1, ?_, ?_⟩
    · intro i; rw [h2]; simp
    · rw [h3]; simp

/-- C18: for disjoint constraints, scaling the witness of block `j` by `coeffs_j` turns the
defects `d_j` of the parts into the defect `Σ coeffs_j²·d_j` of the merge; in particular
the scaled witness satisfies the merge when each block satisfies its own constraint. -/
theorem C18_merge_scaled (cs : List (QuadConstraint F)) (coeffs : List F)
    (hlen : cs.length = coeffs.length) (hs : ∀ c ∈ cs, SortedSet c.indexes)
    (hd : cs.Pairwise fun c d => ∀ i ∈ c.indexes, i ∉ d.indexes)
    (x y x' y' : Nat → F)
    (hx : ∀ p ∈ cs.zip coeffs, ∀ i ∈ p.1.indexes, x' i = p.2 * x i ∧ y' i = p.2 * y i) :
    ∃ c, QuadConstraint.merge cs coeffs = .ok c ∧
      quadDefect c x' y' = ((cs.zip coeffs).map fun p => p.2 ^ 2 * quadDefect p.1 x y).sum ∧
      ((∀ d ∈ cs, QuadSat d x y) → QuadSat c x' y') := by
  obtain ⟨c, h1, h2, h3, h4⟩ := (C18_merge cs coeffs).2 hlen
  have hnd : (cs.map fun c => c.indexes).flatten.Nodup := by
    rw [List.nodup_flatten]
    refine ⟨?_, ?_⟩
    · intro l hl
      obtain ⟨d, hd, rfl⟩ := List.mem_map.1 hl
      exact (hs d hd).imp (fun {a b} (hab : a < b) => Nat.ne_of_lt hab)
    · rw [List.pairwise_map]
      exact hd.imp (fun {a b} h => List.disjoint_left.2 (fun {i} hi => h i hi))
  have hperm : c.indexes.Perm (cs.map fun c => c.indexes).flatten := by
    apply (List.perm_ext_iff_of_nodup
      (h2.imp (fun {a b} (hab : a < b) => Nat.ne_of_lt hab)) hnd).2
    intro i
    rw [h3, List.mem_flatten]
    constructor
    · rintro ⟨d, hd, hi⟩; exact ⟨d.indexes, List.mem_map.2 ⟨d, hd, rfl⟩, hi⟩
    · rintro ⟨l, hl, hi⟩
      obtain ⟨d, hd, rfl⟩ := List.mem_map.1 hl
      exact ⟨d, hd, hi⟩
  have hdef : quadDefect c x' y'
      = ((cs.zip coeffs).map fun p => p.2 ^ 2 * quadDefect p.1 x y).sum := by
    unfold quadDefect
    rw [(hperm.map _).sum_eq, h4]
    clear h1 h2 h3 h4 hperm hnd hd hs
    induction cs generalizing coeffs with
    | nil => simp
    | cons d cs ih =>
      cases coeffs with
      | nil => simp at hlen
      | cons e coeffs =>
        have := ih coeffs (by simpa using hlen) (fun p hp => hx p (by simp [hp]))
        simp only [List.zip_cons_cons, List.map_cons, List.flatten_cons, List.map_append,
          List.sum_append, List.sum_cons] at this ⊢
        have hb : (d.indexes.map fun i => x' i * y' i).sum
            = e ^ 2 * (d.indexes.map fun i => x i * y i).sum := by
          rw [← List.sum_map_mul_left]
          congr 1
          apply List.map_congr_left
          intro i hi
          obtain ⟨h1, h2⟩ := hx (d, e) (by simp) i hi
          rw [h1, h2]; ring
        rw [hb]
        linear_combination this
  refine ⟨c, h1, hdef, ?_⟩
  intro hsat
  have : quadDefect c x' y' = 0 := by
    rw [hdef]
    apply List.sum_eq_zero
    intro z hz
    obtain ⟨p, hp, rfl⟩ := List.mem_map.1 hz
    have := hsat p.1 (List.of_mem_zip hp).1
    unfold QuadSat at this
    unfold quadDefect
    rw [this]; ring
  unfold quadDefect at this
  exact sub_eq_zero.1 this

/-- C18, the limit of "merging": with a common index the merge counts it once, so the
implication fails (the code does not check disjointness here): both parts hold, the
merge of the two copies does not. -/
theorem C18_overlap_unchecked : ∃ (cs : List (QuadConstraint ℚ)) (coeffs : List ℚ) (x y : Nat → ℚ)
    (c : QuadConstraint ℚ), QuadConstraint.merge cs coeffs = .ok c ∧ (∀ d ∈ cs, QuadSat d x y) ∧
    (∀ e ∈ coeffs, e = 1) ∧ ¬ QuadSat c x y := by
  refine ⟨[⟨[1], 6⟩, ⟨[1], 6⟩], [1, 1], fun _ => 2, fun _ => 3, ⟨[1], 12⟩, ?_, ?_, by simp, ?_⟩
  · have h1 : (0 : ℚ) + 6 * 1 * 1 + 6 * 1 * 1 = 12 := by norm_num
    simp [QuadConstraint.merge, quadMergeLoop, setInsertAll, setInsert, h1]
    norm_num
  · norm_num [QuadSat]
  · norm_num [QuadSat]

example : ∃ c : QuadConstraint ℚ, QuadConstraint.merge [⟨[1], 6⟩, ⟨[4], 2⟩] [2, 5] = .ok c ∧
    QuadSat c (fun i => if i = 1 then 4 else 5) (fun i => if i = 1 then 6 else 10) := by
  obtain ⟨c, h1, -, h3⟩ := C18_merge_scaled [⟨[1], 6⟩, ⟨[4], 2⟩] [2, (5 : ℚ)] rfl
    (by simp [SortedSet]) (by simp) (fun i => if i = 1 then 2 else 1)
    (fun i => if i = 1 then 3 else 2) (fun i => if i = 1 then 4 else 5)
    (fun i => if i = 1 then 6 else 10) (by norm_num)
  exact ⟨c, h1, h3 (by norm_num [QuadSat])⟩

/-- C19: the exact behaviour of `QuadConstraint::operator+=` on non-empty constraints.  It
throws iff there is a common index; on disjoint sets it is undefined (reads past the end
of `other`) iff the largest index of `other` lies strictly between the smallest and the
largest of `this`; otherwise it is union and sum. -/
theorem C19_addAssign (c d : QuadConstraint F) (hc : SortedSet c.indexes) (hd : SortedSet d.indexes)
    (nc : c.indexes ≠ []) (nd : d.indexes ≠ []) :
    ((∃ i, i ∈ c.indexes ∧ i ∈ d.indexes) → c.addAssign d = .throw) ∧
    ((∀ i ∈ c.indexes, i ∉ d.indexes) →
      ((∃ i ∈ c.indexes, ∃ j ∈ d.indexes, i < j) ∧ (∃ i ∈ c.indexes, ∀ j ∈ d.indexes, j < i)
        → c.addAssign d = .ub) ∧
      (¬ ((∃ i ∈ c.indexes, ∃ j ∈ d.indexes, i < j) ∧ (∃ i ∈ c.indexes, ∀ j ∈ d.indexes, j < i))
        → ∃ r, c.addAssign d = .ok r ∧ SortedSet r.indexes ∧
          (∀ i, i ∈ r.indexes ↔ i ∈ c.indexes ∨ i ∈ d.indexes) ∧
          r.equalsTo = c.equalsTo + d.equalsTo)) := by
  obtain ⟨f, hf⟩ := Option.ne_none_iff_exists'.1 (fun h => nc (List.head?_eq_none_iff.1 h))
  obtain ⟨l, hl⟩ := Option.isSome_iff_exists.1 (List.getLast?_isSome.2 nc)
  obtain ⟨of, hof⟩ := Option.ne_none_iff_exists'.1 (fun h => nd (List.head?_eq_none_iff.1 h))
  obtain ⟨ol, hol⟩ := Option.isSome_iff_exists.1 (List.getLast?_isSome.2 nd)
  have hlmax := sorted_le_getLast hc hl
  have holmax := sorted_le_getLast hd hol
  have hmin : ∀ (L : List Nat) (a : Nat), SortedSet L → L.head? = some a → ∀ x ∈ L, a ≤ x := by
    intro L a hL ha x hx
    obtain ⟨t, rfl⟩ := List.head?_eq_some_iff.1 ha
    rcases List.mem_cons.1 hx with rfl | hx
    · exact le_refl _
    · exact le_of_lt ((List.pairwise_cons.1 hL).1 x hx)
  have hfmin := hmin _ _ hc hf
  have hofmin := hmin _ _ hd hof
  have mf : f ∈ c.indexes := List.mem_of_head? hf
  have ml : l ∈ c.indexes := List.mem_of_getLast? hl
  have mof : of ∈ d.indexes := List.mem_of_head? hof
  have mol : ol ∈ d.indexes := List.mem_of_getLast? hol
  unfold QuadConstraint.addAssign
  rw [hf, hl, hof, hol]
  simp only
  refine ⟨?_, ?_⟩
  · rintro ⟨i, hi1, hi2⟩
    have h1 := hfmin i hi1; have h2 := hlmax i hi1
    have h3 := hofmin i hi2; have h4 := holmax i hi2
    rw [if_pos ⟨by omega, by omega⟩, addAssignLoop_throw _ _ hc hd ⟨i, hi1, hi2⟩]
    rfl
  · intro hdis
    have hne : ∀ i ∈ c.indexes, ∀ j ∈ d.indexes, i ≠ j := by
      intro i hi j hj h; subst h; exact hdis i hi hj
    refine ⟨?_, ?_⟩
    · rintro ⟨⟨i, hi, j, hj, hij⟩, ⟨k, hk, hkj⟩⟩
      have h1 := hfmin i hi; have h2 := holmax j hj
      have h3 := hlmax k hk; have h4 := hkj of mof
      rw [if_pos ⟨by omega, by omega⟩, addAssignLoop_disjoint _ _ hc hd hdis, if_pos ⟨k, hk, hkj⟩]
      rfl
    · intro hnot
      refine ⟨⟨setInsertAll c.indexes d.indexes, c.equalsTo + d.equalsTo⟩, ?_,
        setInsertAll_sorted _ _ hc, fun i => setInsertAll_mem _ _ _, rfl⟩
      split_ifs with hov
      · rw [addAssignLoop_disjoint _ _ hc hd hdis, if_neg]
        · rfl
        · intro h
          apply hnot
          have := hne f mf ol mol
          exact ⟨⟨f, mf, ol, mol, by omega⟩, h⟩
      · rfl

/-- C19: the two special cases with an empty index set: adding a constraint without
indexes changes nothing, adding to one without indexes copies the argument (so in either
case the right-hand side of the empty one is lost). -/
theorem C19_addAssign_empty (c d : QuadConstraint F) :
    (d.indexes = [] → c.addAssign d = .ok c) ∧
    (c.indexes = [] → d.indexes ≠ [] → c.addAssign d = .ok d) := by
  constructor
  · intro h; unfold QuadConstraint.addAssign; rw [h]; rfl
  · intro h hd
    obtain ⟨of, hof⟩ := Option.ne_none_iff_exists'.1 (fun h => hd (List.head?_eq_none_iff.1 h))
    obtain ⟨ol, hol⟩ := Option.isSome_iff_exists.1 (List.getLast?_isSome.2 hd)
    unfold QuadConstraint.addAssign; rw [h, hof, hol]; rfl

/-- C19: a concrete disjoint pair on which the code reads past the end. -/
theorem C19_ub_witness : (⟨[1, 5], 0⟩ : QuadConstraint F).addAssign ⟨[3], 0⟩ = .ub := by
  refine ((C19_addAssign ⟨[1, 5], 0⟩ ⟨[3], 0⟩ (by simp [SortedSet]) (by simp [SortedSet])
    (by simp) (by simp)).2 (by simp)).1 (by simp)

example : ∃ r, (⟨[1, 5], 2⟩ : QuadConstraint ℚ).addAssign ⟨[3, 7], 3⟩ = .ok r ∧ r.equalsTo = 5 := by
  obtain ⟨r, h1, -, -, h2⟩ := ((C19_addAssign (F := ℚ) ⟨[1, 5], 2⟩ ⟨[3, 7], 3⟩
    (by simp [SortedSet]) (by simp [SortedSet]) (by simp) (by simp)).2 (by simp)).2 (by simp)
  exact ⟨r, h1, by rw [h2]; norm_num⟩

/-- C20: `checkConstraint(lin,w)` decides exactly "same indexes, and the sum holds". -/
theorem C20_lin (c : LinConstraint F) (w : PtxtVec F) (hw : Sorted w) :
    checkLin c w = true ↔ keys c.terms = keys w ∧ LinSat c (coef w) := by
  unfold checkLin LinSat
  rw [checkLinLoop_eq]
  by_cases h : keys c.terms = keys w
  · rw [if_pos h]
    simp only [zero_add, decide_eq_true_eq, h, true_and]
    rw [zip_sum_eq _ _ hw h]
  · rw [if_neg h]; simp [h]

/-- C20: `checkConstraintLoose(lin,w)` decides exactly "a value for every variable with a
non-zero coefficient, and the sum holds". -/
theorem C20_lin_loose (c : LinConstraint F) (w : PtxtVec F) (hw : Sorted w) :
    checkLinLoose c w = true ↔
      (∀ p ∈ c.terms, p.2 ≠ 0 → p.1 ∈ keys w) ∧ LinSat c (coef w) := by
  unfold checkLinLoose LinSat
  rw [checkLinLooseLoop_eq w hw]
  by_cases h : ∀ p ∈ c.terms, p.2 ≠ 0 → p.1 ∈ keys w
  · rw [if_pos h]
    simp only [zero_add, decide_eq_true_eq]
    tauto
  · rw [if_neg h]; simp only [Bool.false_eq_true, false_iff]; tauto

/-- C20: `checkConstraint(quad,xs,ys)`. -/
theorem C20_quad (c : QuadConstraint F) (xs ys : PtxtVec F) (hx : Sorted xs) (hy : Sorted ys) :
    checkQuad c xs ys = true ↔
      c.indexes = keys xs ∧ c.indexes = keys ys ∧ QuadSat c (coef xs) (coef ys) := by
  unfold checkQuad QuadSat
  rw [checkQuadLoop_eq]
  by_cases h : c.indexes = keys xs ∧ c.indexes = keys ys
  · rw [if_pos h]
    simp only [zero_add, decide_eq_true_eq]
    have he : keys xs = keys ys := h.1.symm.trans h.2
    rw [zip_sum_eq _ _ hy he, sum_eq_coef xs (coef ys) (keys xs) (nodup_keys hx) (fun _ h => h),
      ← h.1]
    have h2 := h.2
    tauto
  · rw [if_neg h]; simp only [Bool.false_eq_true, false_iff]; tauto

/-- C20: `checkConstraintLoose(quad,xs,ys)`. -/
theorem C20_quad_loose (c : QuadConstraint F) (xs ys : PtxtVec F) (hx : Sorted xs) (hy : Sorted ys) :
    checkQuadLoose c xs ys = true ↔
      (∀ i ∈ c.indexes, i ∈ keys xs ∧ i ∈ keys ys) ∧ QuadSat c (coef xs) (coef ys) := by
  unfold checkQuadLoose QuadSat
  rw [checkQuadLooseLoop_eq xs ys hx hy]
  by_cases h : ∀ i ∈ c.indexes, i ∈ keys xs ∧ i ∈ keys ys
  · rw [if_pos h]
    simp only [zero_add, decide_eq_true_eq]
    tauto
  · rw [if_neg h]; simp only [Bool.false_eq_true, false_iff]; tauto

example : checkLin ⟨[(1, 2), (4, 3)], 13⟩ [(1, 5), (4, (1 : ℚ))] = true := by
  rw [C20_lin _ _ (by simp [Sorted])]
  norm_num [keys, LinSat, coef]
example : checkQuadLoose ⟨[1, 4], 13⟩ [(1, 5), (4, (1 : ℚ))] [(0, 7), (1, 2), (4, 3)] = true := by
  rw [C20_quad_loose _ _ _ (by simp [Sorted]) (by simp [Sorted])]
  norm_num [keys, QuadSat, coef]

/-- C21: `splitPtxtVec` splits a map into the entries whose index is in the set and those
whose index is not. -/
theorem C21_split (src : PtxtVec F) (by_ : List Nat) (hs : Sorted src) (hb : SortedSet by_) :
    (splitPtxtVec src by_).1 = src.filter (fun p => p.1 ∈ by_) ∧
    (splitPtxtVec src by_).2.1 = src.filter (fun p => p.1 ∉ by_) := by
  unfold splitPtxtVec
  cases h1 : src.getLast? with
  | none =>
    rw [List.getLast?_eq_none_iff] at h1
    subst h1
    cases h2 : by_.getLast? <;> simp
  | some p =>
    cases h2 : by_.getLast? with
    | none =>
      rw [List.getLast?_eq_none_iff] at h2
      subst h2; simp
    | some k =>
      simp only
      rw [splitLoop_eq src by_ [] [] (by simpa using hs) (by simpa using hs) hb]
      simp

/-- C21: the returned index is larger than every index of the map and of the set (provided
it is representable, i.e. no index is 2^64-1), and it is the smallest such number unless
both are empty, where it is 1. -/
theorem C21_split_index (src : PtxtVec F) (by_ : List Nat) (hs : Sorted src) (hb : SortedSet by_)
    (bs : ∀ p ∈ src, p.1 < 2 ^ 64 - 1) (bb : ∀ i ∈ by_, i < 2 ^ 64 - 1) :
    (∀ p ∈ src, p.1 < (splitPtxtVec src by_).2.2) ∧ (∀ i ∈ by_, i < (splitPtxtVec src by_).2.2) ∧
    (src = [] ∧ by_ = [] ∧ (splitPtxtVec src by_).2.2 = 1 ∨
      ∃ i, (i ∈ keys src ∨ i ∈ by_) ∧ (splitPtxtVec src by_).2.2 = i + 1) := by
  unfold splitPtxtVec
  cases h1 : src.getLast? with
  | none =>
    rw [List.getLast?_eq_none_iff] at h1
    subst h1
    cases h2 : by_.getLast? with
    | none =>
      rw [List.getLast?_eq_none_iff] at h2
      subst h2; simp
    | some k =>
      have hk := List.mem_of_getLast? h2
      have hb1 := bb k hk
      have hm : (1 + k) % sizeMod = k + 1 := by
        rw [Nat.mod_eq_of_lt (by unfold sizeMod; omega)]; omega
      simp only [hm]
      refine ⟨by simp, ?_, .inr ⟨k, .inr hk, rfl⟩⟩
      intro i hi; have := sorted_le_getLast hb h2 i hi; omega
  | some p =>
    have hp := List.mem_of_getLast? h1
    have hb1 := bs p hp
    have hmax := sortedMap_le_getLast hs h1
    cases h2 : by_.getLast? with
    | none =>
      rw [List.getLast?_eq_none_iff] at h2
      subst h2
      have hm : (1 + p.1) % sizeMod = p.1 + 1 := by
        rw [Nat.mod_eq_of_lt (by unfold sizeMod; omega)]; omega
      simp only [hm]
      refine ⟨?_, by simp, .inr ⟨p.1, .inl (List.mem_map.2 ⟨p, hp, rfl⟩), rfl⟩⟩
      intro i hi; have := hmax i hi; omega
    | some k =>
      have hk := List.mem_of_getLast? h2
      have hb2 := bb k hk
      have hmax2 := sorted_le_getLast hb h2
      have hm : (max p.1 k + 1) % sizeMod = max p.1 k + 1 := by
        rw [Nat.mod_eq_of_lt (by unfold sizeMod; omega)]
      simp only [hm]
      refine ⟨?_, ?_, .inr ?_⟩
      · intro i hi; have := hmax i hi; omega
      · intro i hi; have := hmax2 i hi; omega
      · rcases le_total p.1 k with h | h
        · exact ⟨k, .inr hk, by omega⟩
        · exact ⟨p.1, .inl (List.mem_map.2 ⟨p, hp, rfl⟩), by omega⟩

example : (splitPtxtVec [(1, 2), (4, 3), (9, (7 : ℚ))] [0, 4, 5]).1 = [(4, 3)] ∧
    (splitPtxtVec [(1, 2), (4, 3), (9, (7 : ℚ))] [0, 4, 5]).2.1 = [(1, 2), (9, 7)] := by
  obtain ⟨h1, h2⟩ := C21_split [(1, 2), (4, 3), (9, (7 : ℚ))] [0, 4, 5] (by simp [Sorted])
    (by simp [SortedSet])
  rw [h1, h2]; decide

/-- C22: after `makeAlmostDisjoint` (all indexes below `2^31-1`) the two constraints share
exactly one index, the returned one, which was in neither before; the linear constraint
keeps its coefficients outside the quadratic one, gets coefficient 1 at the new index and
right-hand side 0; the quadratic one gets the new index and right-hand side
`quad.equalsTo - s·lin.equalsTo`. -/
theorem C22_shape (lin : LinConstraint F) (quad : QuadConstraint F) (s : F)
    (hl : Sorted lin.terms) (hq : SortedSet quad.indexes)
    (bl : ∀ p ∈ lin.terms, p.1 < 2 ^ 31 - 1) (bq : ∀ i ∈ quad.indexes, i < 2 ^ 31 - 1) :
    ∃ lin' quad' k, makeAlmostDisjoint lin quad s = .ok (lin', quad', k) ∧
      k ∉ keys lin.terms ∧ k ∉ quad.indexes ∧
      Sorted lin'.terms ∧ SortedSet quad'.indexes ∧
      (∀ i, i ∈ keys lin'.terms ∧ i ∈ quad'.indexes ↔ i = k) ∧
      (∀ i, i ∈ quad'.indexes ↔ i = k ∨ i ∈ quad.indexes) ∧
      (∀ i, coef lin'.terms i =
        if i = k then 1 else if i ∈ quad.indexes then 0 else coef lin.terms i) ∧
      lin'.equalsTo = 0 ∧ quad'.equalsTo = quad.equalsTo - s * lin.equalsTo := by
  obtain ⟨k, h, hk1, hk2, -⟩ := makeAlmostDisjoint_spec lin quad s hl hq bl bq
  have hkl : k ∉ keys lin.terms := by
    intro hk; obtain ⟨a, ha⟩ := mem_keys.1 hk
    have := hk1 _ ha; simp at this
  have hkq : k ∉ quad.indexes := fun hk => absurd (hk2 k hk) (lt_irrefl _)
  have hs : Sorted (lin.terms.filter (fun p => p.1 ∉ quad.indexes) ++ [(k, (1 : F))]) := by
    unfold Sorted; rw [List.pairwise_append]
    refine ⟨sorted_filter hl _, by simp, ?_⟩
    intro p hp q hq
    simp only [List.mem_singleton] at hq; subst hq
    exact hk1 p (List.mem_filter.1 hp).1
  refine ⟨_, _, k, h, hkl, hkq, hs, ?_, ?_, ?_, ?_, rfl, by simp only; ring⟩
  · unfold SortedSet; rw [List.pairwise_append]
    refine ⟨hq, by simp, ?_⟩
    intro p hp q hq
    simp only [List.mem_singleton] at hq; subst hq
    exact hk2 p hp
  · intro i
    constructor
    · rintro ⟨h1, h2⟩
      obtain ⟨a, ha⟩ := mem_keys.1 h1
      rcases List.mem_append.1 ha with ha | ha
      · have := (List.mem_filter.1 ha).2
        simp only [decide_eq_true_eq] at this
        rcases List.mem_append.1 h2 with h2 | h2
        · exact absurd h2 this
        · simpa using h2
      · simp only [List.mem_singleton, Prod.mk.injEq] at ha; exact ha.1
    · rintro rfl
      exact ⟨mem_keys.2 ⟨1, by simp⟩, by simp⟩
  · intro i; simp [or_comm]
  · intro i
    rw [coef_append, coef_cons, coef_nil, add_zero]
    have hf : coef (lin.terms.filter (fun p => p.1 ∉ quad.indexes)) i
        = if i ∈ quad.indexes then 0 else coef lin.terms i := by
      generalize lin.terms = m
      induction m with
      | nil => simp
      | cons p m ih =>
        by_cases hp : p.1 ∈ quad.indexes
        · rw [List.filter_cons_of_neg (by simpa using hp), ih, coef_cons]
          split_ifs with h1 h2
          · rfl
          · rw [h2] at hp; exact absurd hp h1
          · rw [zero_add]
        · rw [List.filter_cons_of_pos (by simpa using hp), coef_cons, ih, coef_cons]
          split_ifs with h1 h2
          · rw [h1] at hp; exact absurd h2 hp
          · rfl
          · rw [zero_add]
          · rw [zero_add]
    rw [hf]
    by_cases hik : i = k
    · subst hik
      rw [if_neg hkq, coef_eq_zero _ _ hkl]; simp
    · rw [if_neg (Ne.symm hik), if_neg hik, add_zero]

/-- C22: the meaning is preserved.  For an assignment in which the new `y`-variable is `s`
(this is what the verifier fixes) and the new linear constraint holds, the defect of the
new quadratic constraint is the defect of the old quadratic constraint minus `s` times
that of the old linear one, where the old `y_i` is `y'_i + s·a_i`. -/
theorem C22_meaning (lin : LinConstraint F) (quad : QuadConstraint F) (s : F)
    (hl : Sorted lin.terms) (hq : SortedSet quad.indexes)
    (bl : ∀ p ∈ lin.terms, p.1 < 2 ^ 31 - 1) (bq : ∀ i ∈ quad.indexes, i < 2 ^ 31 - 1)
    (x y' : Nat → F) :
    ∃ lin' quad' k, makeAlmostDisjoint lin quad s = .ok (lin', quad', k) ∧
      (y' k = s → LinSat lin' x →
        quadDefect quad' x y' = quadDefect quad x (fun i => y' i + s * coef lin.terms i)
          - s * linDefect lin x) := by
  obtain ⟨k, h, hk1, hk2, -⟩ := makeAlmostDisjoint_spec lin quad s hl hq bl bq
  refine ⟨_, _, k, h, ?_⟩
  intro hy hsat
  unfold LinSat at hsat
  simp only [List.map_append, List.sum_append, List.map_cons, List.map_nil, List.sum_cons,
    List.sum_nil, one_mul, add_zero] at hsat
  unfold quadDefect linDefect
  simp only [List.map_append, List.sum_append, List.map_cons, List.map_nil, List.sum_cons,
    List.sum_nil, add_zero, hy]
  have hsplit : (lin.terms.map fun p => p.2 * x p.1).sum
      = ((lin.terms.filter (fun p => p.1 ∉ quad.indexes)).map fun p => p.2 * x p.1).sum
        + (quad.indexes.map fun i => coef lin.terms i * x i).sum := by
    have hsq : (quad.indexes.map fun i => coef lin.terms i * x i).sum
        = ((lin.terms.filter (fun p => p.1 ∈ quad.indexes)).map fun p => p.2 * x p.1).sum := by
      rw [sum_eq_coef (lin.terms.filter (fun p => p.1 ∈ quad.indexes)) x quad.indexes
        (hq.imp (fun {a b} (hab : a < b) => Nat.ne_of_lt hab))
        (by
          intro i hi
          obtain ⟨a, ha⟩ := mem_keys.1 hi
          simpa using (List.mem_filter.1 ha).2)]
      congr 1
      apply List.map_congr_left
      intro i hi
      congr 1
      generalize lin.terms = m
      induction m with
      | nil => simp
      | cons p m ih =>
        by_cases hp : p.1 ∈ quad.indexes
        · rw [List.filter_cons_of_pos (by simpa using hp), coef_cons, coef_cons, ih]
        · rw [List.filter_cons_of_neg (by simpa using hp), coef_cons, if_neg, ih, zero_add]
          rintro rfl; exact hp hi
    rw [hsq]
    generalize lin.terms = m
    induction m with
    | nil => simp
    | cons p m ih =>
      by_cases hp : p.1 ∈ quad.indexes
      · rw [List.filter_cons_of_neg (by simpa using hp), List.filter_cons_of_pos (by simpa using hp)]
        simp only [List.map_cons, List.sum_cons]; rw [ih]; ring
      · rw [List.filter_cons_of_pos (by simpa using hp), List.filter_cons_of_neg (by simpa using hp)]
        simp only [List.map_cons, List.sum_cons]; rw [ih]; ring
  have hexp : (quad.indexes.map fun i => x i * (y' i + s * coef lin.terms i)).sum
      = (quad.indexes.map fun i => x i * y' i).sum
        + s * (quad.indexes.map fun i => coef lin.terms i * x i).sum := by
    rw [← List.sum_map_mul_left, ← List.sum_map_add]
    congr 1
    apply List.map_congr_left; intro i _; ring
  rw [hexp, hsplit]
  linear_combination s * hsat

/-- C22: an honest witness stays a witness.  If `x, y` satisfy both constraints then with
`y'_i = y_i - s·a_i` on the quadratic indexes, `y'_new = s` and
`x'_new = -Σ_{i ∉ Q} a_i·x_i`, the new pair of constraints is satisfied. -/
theorem C22_honest (lin : LinConstraint F) (quad : QuadConstraint F) (s : F)
    (hl : Sorted lin.terms) (hq : SortedSet quad.indexes)
    (bl : ∀ p ∈ lin.terms, p.1 < 2 ^ 31 - 1) (bq : ∀ i ∈ quad.indexes, i < 2 ^ 31 - 1)
    (x y : Nat → F) (hlin : LinSat lin x) (hquad : QuadSat quad x y) :
    ∃ lin' quad' k, makeAlmostDisjoint lin quad s = .ok (lin', quad', k) ∧
      ∀ x' y' : Nat → F, (∀ i, i ≠ k → x' i = x i) → (∀ i ∈ quad.indexes, y' i = y i - s * coef lin.terms i) →
        y' k = s →
        x' k = - ((lin.terms.filter fun p => p.1 ∉ quad.indexes).map fun p => p.2 * x p.1).sum →
        LinSat lin' x' ∧ QuadSat quad' x' y' := by
  obtain ⟨k, h, hk1, hk2, -⟩ := makeAlmostDisjoint_spec lin quad s hl hq bl bq
  refine ⟨_, _, k, h, ?_⟩
  intro x' y' hx hy hyk hxk
  have hlt : ∀ p ∈ lin.terms, x' p.1 = x p.1 := fun p hp => hx _ (ne_of_lt (hk1 p hp))
  have hls : LinSat (⟨lin.terms.filter (fun p => p.1 ∉ quad.indexes) ++ [(k, 1)], 0⟩ : LinConstraint F) x' := by
    unfold LinSat
    simp only [List.map_append, List.sum_append, List.map_cons, List.map_nil, List.sum_cons,
      List.sum_nil, one_mul, add_zero, hxk]
    rw [List.map_congr_left (g := fun p => p.2 * x p.1)
      (fun p hp => by rw [hlt p (List.mem_filter.1 hp).1])]
    ring
  refine ⟨hls, ?_⟩
  obtain ⟨l', q', k', h', hm⟩ := C22_meaning lin quad s hl hq bl bq x' y'
  rw [h] at h'
  simp only [Res.ok.injEq, Prod.mk.injEq] at h'
  obtain ⟨rfl, rfl, rfl⟩ := h'
  have := hm hyk hls
  have e1 : linDefect lin x' = 0 := by
    unfold linDefect
    rw [List.map_congr_left (g := fun p => p.2 * x p.1) (fun p hp => by rw [hlt p hp]), hlin, sub_self]
  have e2 : quadDefect quad x' (fun i => y' i + s * coef lin.terms i) = 0 := by
    unfold quadDefect
    rw [List.map_congr_left (g := fun i => x i * y i)
      (fun i hi => by dsimp only; rw [hx i (ne_of_lt (hk2 i hi)), hy i hi]; ring), hquad, sub_self]
  rw [e1, e2] at this
  unfold quadDefect at this
  unfold QuadSat
  linear_combination this

/-- C22, the limit of the index arithmetic in `int`: at index `2^31-1` the addition
overflows, and beyond it the "new" index can be one that is already in use. -/
theorem C22_int_limits (s : F) :
    makeAlmostDisjoint (⟨[], 0⟩ : LinConstraint F) ⟨[2 ^ 31 - 1], 0⟩ s = .ub ∧
    ∃ lin' quad', makeAlmostDisjoint (⟨[], 0⟩ : LinConstraint F) ⟨[0, 2 ^ 31], 0⟩ s
      = .ok (lin', quad', 0) := by
  constructor
  · simp [makeAlmostDisjoint, setDifference, largestKeyLin, largestKeyQuad, toInt32]
  · simp [makeAlmostDisjoint, setDifference, largestKeyLin, largestKeyQuad, toInt32]

example : ∃ lin' quad' k,
    makeAlmostDisjoint (⟨[(1, 2), (4, 3)], 13⟩ : LinConstraint ℚ) ⟨[0, 4], 9⟩ 5 = .ok (lin', quad', k)
      ∧ lin'.terms = [(1, 2), (5, 1)] ∧ quad'.indexes = [0, 4, 5] ∧ k = 5 := by
  simp [makeAlmostDisjoint, setDifference, largestKeyLin, largestKeyQuad, toInt32, mapInsert,
    setInsert]

/-- C55: `addTerm(idx,s)` adds `s` to the coefficient at `idx` (inserting the index if it is
new), leaves all others alone and keeps the right-hand side. -/
theorem C55_addTerm (c : LinConstraint F) (hs : Sorted c.terms) (i : Nat) (a : F) :
    Sorted (c.addTerm i a).terms ∧
    (∀ j, j ∈ keys (c.addTerm i a).terms ↔ j = i ∨ j ∈ keys c.terms) ∧
    (∀ j, coef (c.addTerm i a).terms j = coef c.terms j + if j = i then a else 0) ∧
    (c.addTerm i a).equalsTo = c.equalsTo := by
  refine ⟨?_, fun j => addToKey_keys _ _ _ _, ?_, rfl⟩
  · unfold LinConstraint.addTerm
    simp only
    generalize c.terms = m at hs
    induction m with
    | nil => simp [addToKey, Sorted]
    | cons p m ih =>
      unfold Sorted at *
      have hp := List.pairwise_cons.1 hs
      unfold addToKey
      split_ifs with h1 h2
      · rw [List.pairwise_cons]
        refine ⟨?_, hs⟩
        intro q hq
        rcases List.mem_cons.1 hq with rfl | hq
        · exact h1
        · exact lt_trans h1 (hp.1 q hq)
      · exact List.pairwise_cons.2 hp
      · rw [List.pairwise_cons]
        refine ⟨?_, ih hp.2⟩
        intro q hq
        rcases (addToKey_keys m i a q.1).1 (mem_keys.2 ⟨q.2, hq⟩) with h | h
        · omega
        · obtain ⟨b, hb⟩ := mem_keys.1 h
          exact hp.1 (q.1, b) hb
  · intro j
    unfold LinConstraint.addTerm
    simp only
    generalize c.terms = m
    induction m with
    | nil => simp [addToKey, coef_cons, eq_comm]
    | cons p m ih =>
      unfold addToKey
      split_ifs with h1 h2 h2 h3
      · subst h2; rw [coef_cons]; simp; ring
      · rw [coef_cons, if_neg (by simpa [eq_comm] using h2), zero_add, add_zero]
      · subst h2 h3; rw [coef_cons, coef_cons]; simp; ring
      · rw [coef_cons, coef_cons, add_zero]
        simp only
        rw [if_neg (by omega), if_neg (by omega)]
      · rename_i h4
        rw [coef_cons, coef_cons, ih, if_pos h4]; ring
      · rename_i h4
        rw [coef_cons, coef_cons, ih, if_neg h4]; ring

omit [Field F] [DecidableEq F] in
/-- C55: `addIdx` throws exactly on an index that is already there, and otherwise adds it. -/
theorem C55_addIdx (c : QuadConstraint F) (hs : SortedSet c.indexes) (i : Nat) :
    (i ∈ c.indexes → c.addIdx i = .throw) ∧
    (i ∉ c.indexes → ∃ d, c.addIdx i = .ok d ∧ SortedSet d.indexes ∧
      (∀ j, j ∈ d.indexes ↔ j = i ∨ j ∈ c.indexes) ∧ d.equalsTo = c.equalsTo) := by
  unfold QuadConstraint.addIdx
  constructor
  · intro h; rw [if_pos h]
  · intro h
    rw [if_neg h]
    exact ⟨_, rfl, setInsert_sorted _ _ hs, setInsert_mem _ _, rfl⟩

example : (LinConstraint.addTerm ⟨[(2, 3), (7, (1 : ℚ))], 4⟩ 2 5).terms = [(2, 8), (7, 1)] := by
  norm_num [LinConstraint.addTerm, addToKey]

end

end Verif.Props
