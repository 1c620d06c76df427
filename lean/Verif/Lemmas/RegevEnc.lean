import Verif.Model.RegevEnc
import Verif.Lemmas.RegevUtils
import Mathlib.Algebra.Order.BigOperators.Ring.Finset
import Mathlib.Algebra.BigOperators.Intervals

namespace Verif.Regev
open Verif Verif.Spec

/-! ### Decoding -/

/-- `e_(i+1) - Delta·e_i`. -/
def intDiffs (delta : ℕ) : List ℤ → List ℤ
  | e0 :: e1 :: es => (e1 - delta * e0) :: intDiffs delta (e1 :: es)
  | _ => []

theorem backSub_diffs (delta : ℕ) (hd : 0 < delta) (e0 : ℤ) (es : List ℤ) :
    backSub delta ((e0 :: es).getLast (by simp)) (intDiffs delta (e0 :: es)) = e0 :: es := by
  induction es generalizing e0 with
  | nil => simp [intDiffs, backSub]
  | cons e1 es ih =>
    rw [intDiffs, backSub, List.getLast_cons (by simp : e1 :: es ≠ []), ih e1]
    congr 1
    have : (List.headD (e1 :: es) 0 - (e1 - (delta : ℤ) * e0)) = delta * e0 := by
      simp
    rw [this, Int.mul_fdiv_cancel_left _ (by omega)]

theorem horner_diffs (delta : ℕ) (e0 acc : ℤ) (es : List ℤ) :
    (intDiffs delta (e0 :: es)).foldl (fun (tmp x : ℤ) => tmp * (delta : ℤ) + x) acc =
      acc * delta ^ es.length + (e0 :: es).getLast (by simp) - delta ^ es.length * e0 := by
  induction es generalizing e0 acc with
  | nil => simp [intDiffs]
  | cons e1 es ih =>
    rw [intDiffs, List.foldl_cons, ih e1, List.getLast_cons (by simp : e1 :: es ≠ [])]
    rw [List.length_cons, pow_succ]
    ring

section
variable {q ell : ℕ}

theorem decodeDiffs_eq [NeZero q] (delta : ℕ) (x : ZMod q) (es : List ℤ) (c : ZMod q)
    (h : ∀ d ∈ intDiffs delta es, 2 * |d| < q) :
    decodeDiffs delta (es.zipIdx.map fun p => - (c * (delta : ZMod q) ^ p.2) - (p.1 : ZMod q)) =
      intDiffs delta es := by
  have aux : ∀ (es : List ℤ) (k : ℕ), (∀ d ∈ intDiffs delta es, 2 * |d| < q) →
      decodeDiffs delta ((es.zipIdx k).map fun p => - (c * (delta : ZMod q) ^ p.2) - (p.1 : ZMod q)) =
      intDiffs delta es := by
    intro es
    induction es with
    | nil => intro k _; rfl
    | cons e0 es ih =>
      intro k h
      cases es with
      | nil => rfl
      | cons e1 es =>
        have ih' := ih (k + 1) (fun d hd => h d (by rw [intDiffs]; exact List.mem_cons_of_mem _ hd))
        rw [List.zipIdx_cons, List.map_cons, intDiffs]
        rw [List.zipIdx_cons, List.map_cons] at ih' ⊢
        rw [decodeDiffs, ih']
        congr 1
        rw [balanced_eq]
        have : (-(c * (delta : ZMod q) ^ k) - (e0 : ZMod q)) * (delta : ZMod q) -
            (-(c * (delta : ZMod q) ^ (k + 1)) - (e1 : ZMod q)) =
            ((e1 - delta * e0 : ℤ) : ZMod q) := by
          push_cast; ring
        simp only
        rw [this, valMinAbs_cast]
        exact h _ (by rw [intDiffs]; exact List.mem_cons_self)
  exact aux es 0 h

/-- The reduction of lines 326-330 recovers any integer in `[⌊D/2⌋-D, ⌊D/2⌋)`. -/
theorem reduce_eq (D e m : ℤ) (hD : 0 < D) (h1 : D / 2 - D ≤ e) (h2 : e < D / 2) :
    (let tmp := (e - D * m).fmod D
     if tmp ≥ D.fdiv 2 then tmp - D else if tmp < (-D).fdiv 2 then tmp + D else tmp) = e := by
  have hm : (e - D * m).fmod D = e % D := by
    rw [Int.fmod_eq_emod_of_nonneg _ hD.le, Int.sub_mul_emod_self_left]
  have h2' : D.fdiv 2 = D / 2 := Int.fdiv_eq_ediv_of_nonneg _ (by norm_num)
  have h3' : (-D).fdiv 2 = (-D) / 2 := Int.fdiv_eq_ediv_of_nonneg _ (by norm_num)
  simp only [hm, h2', h3']
  by_cases he : 0 ≤ e
  · rw [Int.emod_eq_of_lt he (by omega), if_neg (by omega), if_neg (by omega)]
  · have : e % D = e + D := by
      rw [← Int.add_emod_right, Int.emod_eq_of_lt (by omega) (by omega)]
    rw [this, if_pos (by omega)]
    ring

theorem decodeNoise_eq [NeZero q] (delta : ℕ) (hd : 0 < delta) (c : ZMod q) (e0 : ℤ) (es : List ℤ)
    (h : ∀ d ∈ intDiffs delta (e0 :: es), 2 * |d| < q)
    (h1 : (delta : ℤ) ^ es.length / 2 - (delta : ℤ) ^ es.length ≤ (e0 :: es).getLast (by simp))
    (h2 : (e0 :: es).getLast (by simp) < (delta : ℤ) ^ es.length / 2) :
    decodeNoise delta (es.length + 1)
      ((e0 :: es).zipIdx.map fun p => - (c * (delta : ZMod q) ^ p.2) - (p.1 : ZMod q)) = e0 :: es := by
  unfold decodeNoise
  simp only [decodeDiffs_eq delta c (e0 :: es) c h, horner_diffs, Nat.add_sub_cancel]
  have := reduce_eq ((delta : ℤ) ^ es.length) ((e0 :: es).getLast (by simp)) e0 (by positivity) h1 h2
  simp only at this
  rw [show (0 : ℤ) * delta ^ es.length + (e0 :: es).getLast (by simp) - delta ^ es.length * e0 =
    (e0 :: es).getLast (by simp) - delta ^ es.length * e0 by ring, this]
  exact backSub_diffs delta hd e0 es

/-! ### Inner products -/

variable [Fact (1 < q)] [NeZero ell]

theorem ip_eq_sum (a b : EVec q ell) : ip a b = (List.zipWith (· * ·) a b).sum := by
  unfold ip
  rw [List.sum_eq_foldl]

theorem ip_eq (a b : EVec q ell) (m : ℕ) (ha : a.length = m) (hb : b.length = m) :
    ip a b = ∑ j ∈ Finset.range m, a.getD j 0 * b.getD j 0 := by
  rw [ip_eq_sum]
  induction a generalizing b m with
  | nil => subst ha; simp
  | cons x a ih =>
    cases b with
    | nil => simp at hb; subst hb; simp at ha
    | cons y b =>
      obtain ⟨m, rfl⟩ : ∃ k, m = k + 1 := ⟨a.length, by simpa using ha.symm⟩
      rw [List.zipWith_cons_cons, List.sum_cons, ih b m (by simpa using ha) (by simpa using hb),
        Finset.sum_range_succ']
      simp only [List.getD_cons_succ, List.getD_cons_zero]
      ring

theorem getD_zipWith_add (a b : EVec q ell) (h : a.length = b.length) (j : ℕ) :
    (List.zipWith (· + ·) a b).getD j 0 = a.getD j 0 + b.getD j 0 := by
  simp only [List.getD_eq_getElem?_getD, List.getElem?_zipWith]
  by_cases hj : j < a.length
  · rw [List.getElem?_eq_getElem hj, List.getElem?_eq_getElem (by omega)]
    rfl
  · rw [List.getElem?_eq_none (by omega), List.getElem?_eq_none (by omega)]
    simp

theorem ip_add_left (a a' b : EVec q ell) (h1 : a.length = b.length) (h2 : a'.length = b.length) :
    ip (List.zipWith (· + ·) a a') b = ip a b + ip a' b := by
  rw [ip_eq _ b b.length (by simp [h1, h2]) rfl, ip_eq a b _ h1 rfl, ip_eq a' b _ h2 rfl,
    ← Finset.sum_add_distrib]
  refine Finset.sum_congr rfl fun j _ => ?_
  rw [getD_zipWith_add _ _ (h1.trans h2.symm)]; ring

theorem ip_comm (a b : EVec q ell) (h : a.length = b.length) : ip a b = ip b a := by
  rw [ip_eq a b b.length h rfl, ip_eq b a b.length rfl h]
  exact Finset.sum_congr rfl fun j _ => mul_comm _ _

theorem ip_add_right (b a a' : EVec q ell) (h1 : a.length = b.length) (h2 : a'.length = b.length) :
    ip b (List.zipWith (· + ·) a a') = ip b a + ip b a' := by
  rw [ip_comm b _ (by simp [h1, h2]), ip_add_left a a' b h1 h2, ip_comm a b h1, ip_comm a' b h2]

/-- `(v·A)·r = v·(A·r)`. -/
theorem ip_assoc (v r : EVec q ell) (A : EMat q ell) (m : ℕ) (hv : v.length = A.length)
    (hA : ∀ row ∈ A, row.length = m) (hr : r.length = m) :
    ip ((List.range m).map fun j => ip v (A.map fun row => row.getD j 0)) r =
      ip v (A.map fun row => ip row r) := by
  rw [ip_eq _ r m (by simp) hr, ip_eq v _ A.length hv (by simp)]
  have e1 : ∀ j ∈ Finset.range m, ((List.range m).map fun j => ip v (A.map fun row => row.getD j 0)).getD j 0 *
      r.getD j 0 = ∑ i ∈ Finset.range A.length, v.getD i 0 * ((A.getD i []).getD j 0 * r.getD j 0) := by
    intro j hj
    have hj' := Finset.mem_range.1 hj
    rw [List.getD_eq_getElem?_getD, List.getElem?_map, List.getElem?_range hj', Option.map_some,
      Option.getD_some, ip_eq v _ A.length hv (by simp), Finset.sum_mul]
    refine Finset.sum_congr rfl fun i hi => ?_
    have hi' := Finset.mem_range.1 hi
    have : (A.map fun row => row.getD j 0).getD i 0 = (A.getD i []).getD j 0 := by
      simp [List.getD_eq_getElem?_getD, hi']
    rw [this]; ring
  rw [Finset.sum_congr rfl e1, Finset.sum_comm]
  refine Finset.sum_congr rfl fun i hi => ?_
  have hi' := Finset.mem_range.1 hi
  rw [← Finset.mul_sum]
  congr 1
  have : (A.map fun row => ip row r).getD i 0 = ip (A.getD i []) r := by
    simp [List.getD_eq_getElem?_getD, hi']
  rw [this, ip_eq _ r m _ hr]
  apply hA
  rw [List.getD_eq_getElem?_getD, List.getElem?_eq_getElem hi', Option.getD_some]
  exact List.getElem_mem hi'

/-! ### Norms of products -/

omit [Fact (1 < q)] [NeZero ell] in
theorem valMinAbs_le [NeZero q] (z : ℤ) : |((z : ZMod q)).valMinAbs| ≤ |z| := by
  have := ZMod.natAbs_min_of_le_div_two q ((z : ZMod q)).valMinAbs z (by simp)
    (ZMod.natAbs_valMinAbs_le _)
  rw [Int.abs_eq_natAbs, Int.abs_eq_natAbs]
  exact_mod_cast this

omit [Fact (1 < q)] in
/-- The coefficients of a product as one signed sum. -/
theorem mul_c' {F : Type} [CommRing F] (a b : Elt F ell) (k : Fin ell) :
    (a * b).c k = ∑ s : Fin ell, (if s ≤ k then 1 else -1) * (a.c s * b.c (k - s)) := by
  rw [Elt.mul_c]
  refine Finset.sum_congr rfl fun s _ => ?_
  by_cases h : s ≤ k
  · have hv : (k - s).val = k.val - s.val := Fin.sub_val_of_le h
    rw [Finset.sum_eq_single (k - s)]
    · rw [if_pos (by rw [hv]; have : s.val ≤ k.val := h; omega), if_pos h]; ring
    · intro j _ hj
      have h' : s.val ≤ k.val := h
      rw [if_neg (fun he => hj (Fin.ext (by rw [hv]; omega))), if_neg (by omega)]
    · simp
  · have h' : k.val < s.val := by
      have := lt_of_not_ge h; exact this
    have hv : (k - s).val = k.val + ell - s.val := by
      rw [Fin.sub_def]
      simp only
      rw [Nat.mod_eq_of_lt (by omega)]; omega
    rw [Finset.sum_eq_single (k - s)]
    · rw [if_neg (by omega), if_pos (by rw [hv]; omega), if_neg h]; ring
    · intro j _ hj
      rw [if_neg (by omega), if_neg (fun he => hj (Fin.ext (by rw [hv]; omega)))]
    · simp

omit [Fact (1 < q)] [NeZero ell] in
theorem normSq_coeffs (a : EVec q ell) : normSq (coeffs a) =
    ∑ i ∈ Finset.range a.length, ∑ s : Fin ell, ((a.getD i ⟨fun _ => 0⟩).c s).valMinAbs ^ 2 := by
  induction a with
  | nil => simp [normSq, coeffs]
  | cons x a ih =>
    have : coeffs (x :: a) = List.ofFn x.c ++ coeffs a := rfl
    rw [this, normSq_append, ih, List.length_cons, Finset.sum_range_succ']
    simp only [List.getD_cons_succ, List.getD_cons_zero]
    rw [add_comm]
    congr 1
    rw [normSq, List.map_ofFn, List.sum_ofFn]
    rfl

/-- Cauchy-Schwarz: each coefficient of an inner product of ring elements is at most the product
of the norms. -/
theorem ip_coeff_bound (a b : EVec q ell) (h : a.length = b.length) (k : Fin ell) :
    ∃ N : ℤ, (ip a b).c k = (N : ZMod q) ∧ N ^ 2 ≤ normSq (coeffs a) * normSq (coeffs b) := by
  have hq : NeZero q := ⟨by have := (Fact.out : 1 < q); omega⟩
  let α : ℕ → Fin ell → ℤ := fun i s => ((a.getD i 0).c s).valMinAbs
  let β : ℕ → Fin ell → ℤ := fun i s => ((b.getD i 0).c s).valMinAbs
  let sg : Fin ell → ℤ := fun s => if s ≤ k then 1 else -1
  refine ⟨∑ p ∈ Finset.range b.length ×ˢ Finset.univ, (sg p.2 * α p.1 p.2) * β p.1 (k - p.2), ?_, ?_⟩
  · rw [ip_eq a b b.length h rfl, Elt.finset_sum_c, Finset.sum_product]
    push_cast
    refine Finset.sum_congr rfl fun i _ => ?_
    rw [mul_c']
    refine Finset.sum_congr rfl fun s _ => ?_
    simp only [α, β, sg, ZMod.coe_valMinAbs]
    split <;> push_cast <;> ring
  · refine (Finset.sum_mul_sq_le_sq_mul_sq _ _ _).trans (le_of_eq ?_)
    rw [normSq_coeffs, normSq_coeffs, h]
    congr 1
    · rw [Finset.sum_product]
      refine Finset.sum_congr rfl fun i _ => Finset.sum_congr rfl fun s _ => ?_
      simp only [α, sg]
      split <;> ring_nf <;> rfl
    · rw [Finset.sum_product]
      refine Finset.sum_congr rfl fun i _ => ?_
      exact Equiv.sum_comp (Equiv.subLeft k) (fun s => ((b.getD i 0).c s).valMinAbs ^ 2)

/-! ### Sampling -/

omit [Fact (1 < q)] [NeZero ell] in
theorem sampleLoop_ok [NeZero q] (len n : ℕ) (bound : ℤ) (rnd : Rnd) (k : ℕ) : ∀ t (v : EVec q ell),
    sampleLoop len n bound rnd t k = .ok v → v.length = len ∧ normSq (coeffs v) ≤ bound ∧
      ∀ e ∈ v, ∀ i, |(e.c i).valMinAbs| < 2 ^ n := by
  induction k with
  | zero => intro t v h; simp [sampleLoop] at h
  | succ k ih =>
    intro t v h
    unfold sampleLoop at h
    simp only at h
    split at h
    · rename_i hb
      obtain rfl := Res.ok.inj h
      rw [normSquaredE_eq] at hb
      refine ⟨by simp, hb, ?_⟩
      intro e he i
      obtain ⟨j, _, rfl⟩ := List.mem_map.1 he
      simp only [boundedElement, boundedScalar]
      refine lt_of_le_of_lt (valMinAbs_le _) ?_
      have : (rnd t j i.val).1 % 2 ^ n < 2 ^ n := Nat.mod_lt _ (by positivity)
      have h2 : (((rnd t j i.val).1 % 2 ^ n : ℕ) : ℤ) < 2 ^ n := by exact_mod_cast this
      split
      · rw [abs_neg, abs_of_nonneg (by positivity)]; exact h2
      · rw [abs_of_nonneg (by positivity)]; exact h2
    · exact ih _ _ h

end
end Verif.Regev
