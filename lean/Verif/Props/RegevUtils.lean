/-
Properties C32, C36, C37, C39, C40, C41: the utilities of the Regev proofs.
-/
import Verif.Lemmas.RegevUtils
import Verif.Props.FourSquares
import Verif.Lemmas.Vec
import Mathlib.Tactic.Abel
import Mathlib.Tactic.NormNum
import Mathlib.Tactic.FinCases

namespace Verif.Props
open Verif Verif.Spec
open Polynomial hiding coeffs

instance fact101 : Fact (Nat.Prime 101) := ⟨by norm_num⟩

section
variable {q : ℕ} [NeZero q]

/-! ### C32: padding to an exact norm -/

theorem four_norm (a b c d : ℤ) (D B : ℤ) (ha : 0 ≤ a) (hb : 0 ≤ b) (hc : 0 ≤ c) (hd : 0 ≤ d)
    (h : a ^ 2 + b ^ 2 + c ^ 2 + d ^ 2 = D) (hD : D ≤ B ^ 2) (hB : 2 * |B| < q) :
    normSq ([a, b, c, d].map fun (x : ℤ) => (x : ZMod q)) = D := by
  have key : ∀ x : ℤ, 0 ≤ x → x ^ 2 ≤ B ^ 2 → (x : ZMod q).valMinAbs = x := fun x hx h2 => by
    apply valMinAbs_cast
    have := sq_le_sq.1 h2
    omega
  have h1 : a ^ 2 ≤ B ^ 2 := by nlinarith [sq_nonneg b, sq_nonneg c, sq_nonneg d]
  have h2 : b ^ 2 ≤ B ^ 2 := by nlinarith [sq_nonneg a, sq_nonneg c, sq_nonneg d]
  have h3 : c ^ 2 ≤ B ^ 2 := by nlinarith [sq_nonneg b, sq_nonneg a, sq_nonneg d]
  have h4 : d ^ 2 ≤ B ^ 2 := by nlinarith [sq_nonneg b, sq_nonneg c, sq_nonneg a]
  simp only [normSq, List.map_cons, List.map_nil, List.sum_cons, List.sum_nil, key a ha h1,
    key b hb h2, key c hc h3, key d hd h4]
  linarith

/-- **C32.** `pad2exactNorm` of a vector of scalars whose norm is at most `bound`: unless the
four-square search reports a failure (and then the pad is four times -1, see `C32_failure`), the
vector with its pad has squared norm exactly `bound²`. -/
theorem C32_scalars (single : ℕ → Bool) (probPrime : ℤ → Bool) (hP : NoFalsePrimes probPrime)
    (v pad : List (ZMod q)) (bound : ℤ) (hpad : pad.length = 4) (hb : 2 * |bound| < q)
    (hv : normSq v ≤ bound ^ 2) :
    ∃ pad', pad2exactNormS single probPrime v pad bound = .ok pad' ∧ pad'.length = 4 ∧
      (normSq (v ++ pad') = bound ^ 2 ∨
       (FourSq.decompose4 single probPrime (bound ^ 2 - normSq v) = .ok [-1, -1, -1, -1] ∧
        pad' = [-1, -1, -1, -1])) := by
  unfold pad2exactNormS
  rw [normSquaredS_eq, ← sq]
  have hlt : ¬ pad.length < PAD_SIZE := by rw [hpad]; decide
  rcases FourSq.decompose4_ok (single := single) hP (bound ^ 2 - normSq v) (by linarith) with
    h | ⟨l, h, a, b, c, d, rfl, ha, hb', hc, hd, hsum⟩
  · rw [h, Res.ok_bind, if_neg hlt, rdN_ok (by simp [FourSq.failed, PAD_SIZE]), Res.ok_bind]
    refine ⟨_, rfl, by simp [FourSq.failed, hpad, PAD_SIZE], Or.inr ⟨rfl, ?_⟩⟩
    rw [List.drop_eq_nil_of_le (by rw [hpad]; decide)]
    simp [FourSq.failed, PAD_SIZE]
  · rw [h, Res.ok_bind, if_neg hlt, rdN_ok (by simp [PAD_SIZE]), Res.ok_bind]
    have hdrop : pad.drop PAD_SIZE = [] := List.drop_eq_nil_of_le (by rw [hpad]; decide)
    refine ⟨_, rfl, by simp [hpad, PAD_SIZE], Or.inl ?_⟩
    rw [hdrop, List.append_nil, normSq_append, List.take_of_length_le (by simp [PAD_SIZE]),
      four_norm a b c d _ bound ha hb' hc hd hsum (by linarith [normSq_nonneg v]) hb]
    ring

/-- The bound and field size of a non-trivial use: (3,4,-5 | pad) with bound 10 in Z_101. -/
example : normSq ([3, 4, -5] : List (ZMod 101)) ≤ 10 ^ 2 ∧ 2 * |(10 : ℤ)| < (101 : ℕ) := by
  decide +kernel

/-- **C32.** A vector whose norm exceeds the bound makes it throw. -/
theorem C32_throws (single : ℕ → Bool) (probPrime : ℤ → Bool)
    (v pad : List (ZMod q)) (bound : ℤ) (hv : bound ^ 2 < normSq v) :
    pad2exactNormS single probPrime v pad bound = .throw := by
  unfold pad2exactNormS
  rw [normSquaredS_eq, ← sq]
  unfold FourSq.decompose4
  rw [if_pos (by linarith)]
  rfl

/-- **C32.** Writing into a pad of fewer than four scalars is undefined behaviour. -/
theorem C32_short_pad (single : ℕ → Bool) (probPrime : ℤ → Bool) (hP : NoFalsePrimes probPrime)
    (v pad : List (ZMod q)) (bound : ℤ) (hpad : pad.length < 4) (hv : normSq v ≤ bound ^ 2) :
    pad2exactNormS single probPrime v pad bound = .ub := by
  unfold pad2exactNormS
  rw [normSquaredS_eq, ← sq]
  rcases FourSq.decompose4_ok (single := single) hP (bound ^ 2 - normSq v) (by linarith) with
    h | ⟨l, h, _⟩
  · rw [h, Res.ok_bind, if_pos (by exact hpad)]
  · rw [h, Res.ok_bind, if_pos (by exact hpad)]

/-- The pad elements hold the four numbers in order, then zeros. -/
theorem pad_elts {ell : ℕ} [NeZero ell] (four : List ℤ) (h4 : four.length = 4) :
    ∃ k, coeffs ((List.range (ceilDiv PAD_SIZE ell)).map (fun i => (⟨fun j =>
        if i * ell + j.val < PAD_SIZE then ((four.getD (i * ell + j.val) 0 : ℤ) : ZMod q) else 0⟩ :
          Elt (ZMod q) ell))) = four.map (fun (x : ℤ) => (x : ZMod q)) ++ List.replicate k 0 := by
  have hell : 0 < ell := Nat.pos_of_ne_zero (NeZero.ne ell)
  have hge : 4 ≤ ceilDiv PAD_SIZE ell * ell := by
    unfold ceilDiv PAD_SIZE
    have h1 := Nat.div_add_mod (4 + ell - 1) ell
    have h2 := Nat.mod_lt (4 + ell - 1) hell
    rw [Nat.mul_comm] at h1
    omega
  refine ⟨ceilDiv PAD_SIZE ell * ell - 4, ?_⟩
  apply List.ext_getElem?
  intro n
  by_cases hn : n < ceilDiv PAD_SIZE ell * ell
  · have hi : n / ell < ceilDiv PAD_SIZE ell := (Nat.div_lt_iff_lt_mul hell).2 hn
    have hdm : ell * (n / ell) + n % ell = n := Nat.div_add_mod n ell
    have := coeffs_get ((List.range (ceilDiv PAD_SIZE ell)).map (fun i => (⟨fun j =>
        if i * ell + j.val < PAD_SIZE then ((four.getD (i * ell + j.val) 0 : ℤ) : ZMod q) else 0⟩ :
          Elt (ZMod q) ell))) (n / ell) ⟨n % ell, Nat.mod_lt _ hell⟩ _
        (by rw [List.getElem?_map, List.getElem?_range hi]; rfl)
    simp only [hdm] at this
    rw [this]
    have hdm' : n / ell * ell + n % ell = n := by rw [Nat.mul_comm]; exact hdm
    simp only [hdm']
    by_cases h : n < 4
    · rw [if_pos (by exact h), List.getElem?_append_left (by simp [h4, h]), List.getElem?_map,
        List.getD_eq_getElem?_getD, List.getElem?_eq_getElem (by omega)]
      rfl
    · rw [if_neg (by exact h), List.getElem?_append_right (by simp [h4]; omega),
        List.getElem?_replicate, if_pos (by simp [h4]; omega)]
  · rw [List.getElem?_eq_none (by rw [coeffs_length]; simp; omega),
      List.getElem?_eq_none (by simp [h4]; omega)]

theorem normSq_zeros (k : ℕ) : normSq (List.replicate k (0 : ZMod q)) = 0 := by
  simp [normSq]

/-- **C32.** The version on vectors of ring elements: the pad is `⌈4/ell⌉` elements, and all
coefficients of the vector and the pad together have squared norm exactly `bound²`; or the four-square search failed, and the
pad adds at most 4 to the squared norm. -/
theorem C32_elements {ell : ℕ} [NeZero ell] (single : ℕ → Bool) (probPrime : ℤ → Bool)
    (hP : NoFalsePrimes probPrime) (v : List (Elt (ZMod q) ell)) (hne : v ≠ []) (bound : ℤ)
    (hb : 2 * |bound| < q) (hv : normSq (coeffs v) ≤ bound ^ 2) :
    ∃ pad, pad2exactNormV single probPrime v bound = .ok pad ∧ pad.length = (4 + ell - 1) / ell ∧
      (normSq (coeffs (v ++ pad)) = bound ^ 2 ∨
       FourSq.decompose4 single probPrime (bound ^ 2 - normSq (coeffs v)) =
         .ok [-1, -1, -1, -1] ∧ normSq (coeffs (v ++ pad)) ≤ normSq (coeffs v) + 4) := by
  unfold pad2exactNormV pad2exactNormE
  rw [if_neg hne, normSquaredE_eq, ← sq]
  have happ : ∀ p, coeffs (v ++ p) = coeffs v ++ coeffs p := fun p => by
    simp only [coeffs, List.flatMap_append]
  rcases FourSq.decompose4_ok (single := single) hP (bound ^ 2 - normSq (coeffs v)) (by linarith) with
    h | ⟨l, h, a, b, c, d, rfl, ha, hb', hc, hd, hsum⟩
  · rw [h, Res.ok_bind]
    simp only [List.length_replicate, lt_irrefl, if_false]
    rw [rdN_ok (by simp [FourSq.failed, PAD_SIZE]), Res.ok_bind]
    refine ⟨_, rfl, by simp [ceilDiv, PAD_SIZE], Or.inr ⟨rfl, ?_⟩⟩
    rw [List.drop_eq_nil_of_le (by simp), List.append_nil, happ, normSq_append,
      List.take_of_length_le (by simp [FourSq.failed, PAD_SIZE])]
    obtain ⟨k, hk⟩ := pad_elts (q := q) (ell := ell) FourSq.failed rfl
    rw [hk, normSq_append, normSq_zeros]
    have h1 : ((((-1 : ℤ)) : ZMod q).valMinAbs) ^ 2 ≤ 1 := by
      have : (((-1 : ℤ) : ZMod q).valMinAbs).natAbs ≤ (-1 : ℤ).natAbs :=
        ZMod.natAbs_min_of_le_div_two q _ _ (by simp) (ZMod.natAbs_valMinAbs_le _)
      have h2 : |((-1 : ℤ) : ZMod q).valMinAbs| ≤ 1 := by rw [Int.abs_eq_natAbs]; exact_mod_cast this
      rw [← sq_abs]
      nlinarith [abs_nonneg (((-1 : ℤ) : ZMod q).valMinAbs)]
    simp only [FourSq.failed, normSq, List.map_cons, List.map_nil, List.sum_cons, List.sum_nil]
    linarith
  · rw [h, Res.ok_bind]
    simp only [List.length_replicate, lt_irrefl, if_false]
    rw [rdN_ok (by simp [PAD_SIZE]), Res.ok_bind]
    refine ⟨_, rfl, by simp [ceilDiv, PAD_SIZE], Or.inl ?_⟩
    rw [List.drop_eq_nil_of_le (by simp), List.append_nil, happ, normSq_append,
      List.take_of_length_le (by simp [PAD_SIZE])]
    obtain ⟨k, hk⟩ := pad_elts (q := q) (ell := ell) [a, b, c, d] rfl
    rw [hk, normSq_append, normSq_zeros,
      four_norm a b c d _ bound ha hb' hc hd hsum (by linarith [normSq_nonneg (coeffs v)]) hb]
    ring

/-- **C32.** An element vector whose norm exceeds the bound throws; an empty one is undefined. -/
theorem C32_elements_throws {ell : ℕ} (single : ℕ → Bool) (probPrime : ℤ → Bool)
    (v : List (Elt (ZMod q) ell)) (bound : ℤ) (hne : v ≠ []) (hv : bound ^ 2 < normSq (coeffs v)) :
    pad2exactNormV single probPrime v bound = .throw := by
  unfold pad2exactNormV pad2exactNormE
  rw [if_neg hne, normSquaredE_eq, ← sq]
  unfold FourSq.decompose4
  rw [if_pos (by linarith)]
  rfl

end

/-- **C32, disagreement with the code.** The failure really happens and is not noticed: for the
vector (8,3) and the bound 12 in Z_101 the pad is (-1,-1,-1,-1) and the padded squared norm is 77
instead of 144. -/
theorem C32_failure (single : ℕ → Bool) (probPrime : ℤ → Bool) (hP : NoFalsePrimes probPrime) :
    ∃ pad', pad2exactNormS single probPrime ([8, 3] : List (ZMod 101)) [0, 0, 0, 0] 12 = .ok pad' ∧
      normSq ([8, 3] ++ pad') = 77 := by
  have h71 : FourSq.decompose4 single probPrime 71 = .ok [-1, -1, -1, -1] := by
    exact (C31_failure_71 single probPrime hP).1
  have hn : (12 : ℤ) * 12 - normSquaredS ([8, 3] : List (ZMod 101)) = 71 := by decide +kernel
  refine ⟨[-1, -1, -1, -1], ?_, by decide +kernel⟩
  unfold pad2exactNormS
  rw [hn, h71]
  decide +kernel

section
variable {q : ℕ} [NeZero q]

/-! ### C36: two digits -/

/-- **C36.** `breakTwoDigits` with a radix between 1 and `P-1`: every coefficient of the input,
taken as an integer of least absolute value, is `lo + radix·hi` over the integers, with
`-radix < 2·lo ≤ radix` and `|hi| ≤ |v|/radix + 1/2`. -/
theorem C36_digits {ell : ℕ} (v : List (Elt (ZMod q) ell)) (radix : ℤ) (h1 : 1 ≤ radix)
    (h2 : radix < q) :
    ∃ hi lo, breakTwoDigits v radix = .ok (hi, lo) ∧ hi.length = v.length ∧ lo.length = v.length ∧
      ∀ (i : ℕ) (e : Elt (ZMod q) ell), v[i]? = some e →
        ∃ h l, hi[i]? = some h ∧ lo[i]? = some l ∧ ∀ j : Fin ell,
          (l.c j).valMinAbs + radix * (h.c j).valMinAbs = (e.c j).valMinAbs ∧
          -radix < 2 * (l.c j).valMinAbs ∧ 2 * (l.c j).valMinAbs ≤ radix ∧
          2 * radix * |(h.c j).valMinAbs| ≤ 2 * |(e.c j).valMinAbs| + radix := by
  unfold breakTwoDigits
  rw [if_neg (by rintro ⟨h, _⟩; omega)]
  refine ⟨_, _, rfl, by simp, by simp, ?_⟩
  intro i e he
  refine ⟨_, _, by rw [List.getElem?_map, he]; rfl, by rw [List.getElem?_map, he]; rfl, ?_⟩
  intro j
  simp only [balanced_eq]
  set x := (e.c j).valMinAbs with hx
  obtain ⟨e1, e2, e3⟩ := twoDigits_spec x radix (by omega)
  set L := (twoDigits x radix).2
  set H := (twoDigits x radix).1
  have hxb : 2 * |x| ≤ q := by
    have := ZMod.valMinAbs_mem_Ioc (e.c j)
    rw [← hx] at this
    have h3 := this.1; have h4 := this.2
    rcases abs_cases x with ⟨h, _⟩ | ⟨h, _⟩ <;> omega
  have hLb : 2 * |L| ≤ radix := by
    rcases abs_cases L with ⟨h, _⟩ | ⟨h, _⟩ <;> omega
  have hHb : 2 * radix * |H| ≤ 2 * |x| + radix := by
    have h5 : radix * |H| ≤ |x| + |L| := by
      have : radix * H = x - L := by linarith
      calc radix * |H| = |radix * H| := by rw [abs_mul, abs_of_pos (by omega : 0 < radix)]
        _ = |x - L| := by rw [this]
        _ ≤ |x| + |L| := abs_sub _ _
    linarith
  have hL : ((L : ℤ) : ZMod q).valMinAbs = L := valMinAbs_cast L (by omega)
  have hH : ((H : ℤ) : ZMod q).valMinAbs = H := by
    by_cases hr : radix = 1
    · have hL0 : L = 0 := by omega
      have hHx : H = x := by rw [hr, hL0] at e1; linarith
      rw [hHx, hx, ZMod.coe_valMinAbs]
    · apply valMinAbs_cast
      have hr2 : 2 ≤ radix := by omega
      have : 2 * |H| * radix ≤ q + radix := by linarith
      by_contra hcon
      have hge : (q : ℤ) ≤ 2 * |H| := by omega
      nlinarith
  rw [hL, hH]
  exact ⟨e1, e2, e3, hHb⟩

/-- **C36.** As ring elements `lo + radix·hi = v`, for every radix other than zero. -/
theorem C36_recompose {ell : ℕ} (v : List (Elt (ZMod q) ell)) (radix : ℤ) (h1 : radix ≠ 0) :
    ∃ hi lo, breakTwoDigits v radix = .ok (hi, lo) ∧
      List.zipWith (fun l h => l + (radix : ZMod q) • h) lo hi = v := by
  unfold breakTwoDigits
  rw [if_neg (by rintro ⟨h, _⟩; omega)]
  refine ⟨_, _, rfl, ?_⟩
  rw [List.zipWith_map, List.zipWith_self]
  conv_rhs => rw [← List.map_id v]
  apply List.map_congr_left
  intro e _
  apply Elt.ext
  funext j
  simp only [Elt.add_c, Elt.smul_c, id, balanced_eq]
  have := twoDigits_sum (e.c j).valMinAbs radix
  have h2 := congrArg (fun (x : ℤ) => (x : ZMod q)) this
  simp only [Int.cast_add, Int.cast_mul, ZMod.coe_valMinAbs] at h2
  exact h2

/-- **C36.** With a zero radix the division throws, unless the vector is empty and nothing is divided. -/
theorem C36_zero_radix {ell : ℕ} (hell : 0 < ell) (v : List (Elt (ZMod q) ell)) :
    (v ≠ [] → breakTwoDigits v 0 = .throw) ∧ breakTwoDigits ([] : List (Elt (ZMod q) ell)) 0 = .ok ([], []) := by
  constructor
  · intro hv
    unfold breakTwoDigits
    rw [if_pos]
    refine ⟨rfl, ?_⟩
    obtain ⟨e, v, rfl⟩ := List.exists_cons_of_ne_nil hv
    intro h
    have := congrArg List.length h
    simp [evecScalars, Elt.toList] at this
    omega
  · unfold breakTwoDigits
    rw [if_neg (by rintro ⟨_, h⟩; exact h rfl)]
    rfl

/-- In Z_101 with radix 10 the entry -37 is split as 3 - 4·10. -/
example : (breakTwoDigits [(⟨![-37, 46]⟩ : Elt (ZMod 101) 2)] 10).bind
      (fun p => .ok (p.1.map Elt.toList, p.2.map Elt.toList)) =
    .ok ([[-4, 5]], [[3, -4]]) := by decide +kernel

end

/-! ### C41: power vectors -/

/-- **C41.** `powerVector(vec,x,len)` is `(1, x, .., x^(len-1))` for `len ≥ 1`, over the scalars
and over the extension ring; for `len = 0` the write to `vec[0]` is out of bounds. -/
theorem C41_powers {R : Type} [Monoid R] (x : R) (len : ℕ) :
    (1 ≤ len → powerVector x len = .ok ((List.range len).map fun i => x ^ i)) ∧
    (len = 0 → powerVector x len = .ub) := by
  constructor
  · intro h
    unfold powerVector
    rw [if_neg (by omega)]
    congr 1
    apply List.ext_getElem?
    intro i
    rw [List.getElem?_map]
    cases i with
    | zero => rw [List.getElem?_range (by omega)]; simp
    | succ i =>
      rw [List.getElem?_cons_succ]
      by_cases hi : i < len - 1
      · rw [powerLoop_get x 1 _ i hi, List.getElem?_range (by omega)]; simp
      · rw [List.getElem?_eq_none (by rw [powerLoop_length]; omega),
          List.getElem?_eq_none (by simp; omega)]
        rfl
  · intro h; unfold powerVector; rw [if_pos h]

example : powerVector (3 : ZMod 101) 5 = .ok [1, 3, 9, 27, 81] := by decide +kernel

section
variable {F : Type} [Field F] [DecidableEq F] {ell : ℕ}

/-! ### C37: constraints over the extension ring -/

omit [DecidableEq F] in
theorem blk_eq (x : ℕ → F) (idx k : ℕ) : (blk ell x (idx + ell * k)).c = block ell x idx k := rfl

omit [DecidableEq F] in
theorem mk_dotBlk [NeZero ell] (v : List (Elt F ell)) (x : ℕ → F) (idx : ℕ) :
    inRing (dotBlk v x idx) = AdjoinRoot.mk (phi F ell)
      ((v.zipIdx.map fun p => polyOf p.1.c * polyOf (block ell x idx p.2)).sum) := by
  have aux : ∀ (v : List (Elt F ell)) (k : ℕ), inRing (dotBlk v x (idx + ell * k)) =
      AdjoinRoot.mk (phi F ell)
        (((v.zipIdx k).map fun p => polyOf p.1.c * polyOf (block ell x idx p.2)).sum) := by
    intro v
    induction v with
    | nil => intro k; simp [dotBlk, Elt.inRing_zero]
    | cons a v ih =>
      intro k
      rw [dotBlk, Elt.inRing_add, Elt.inRing_mul, List.zipIdx_cons, List.map_cons, List.sum_cons,
        map_add, map_mul, ← ih (k + 1)]
      rw [show idx + ell * (k + 1) = idx + ell * k + ell by ring]
      rfl
  exact aux v 0

omit [DecidableEq F] in
theorem slice_all {α : Type} (v : List α) : slice v 0 none = .ok v := by
  unfold slice; simp

/-- **C37.** What `expandConstraints(constrs,idx,v)` does to the `ell` constraints it is given:
their left-hand sides, read as a polynomial, grow by `Σ_k v_k·x_k` modulo `X^ell+1`, where `x_k` is
the element whose coefficients are the variables `idx+ell·k, .., idx+ell·k+ell-1`; right-hand
sides and all other constraints stay the same. -/
theorem C37_expand [NeZero ell] (cs : List (LinConstraint F)) (idx : ℕ) (v : List (Elt F ell))
    (hcs : ell ≤ cs.length) :
    ∃ out, expandConstraints cs idx v = .ok out ∧ out.length = cs.length ∧
      (∀ i, ell ≤ i → out[i]? = cs[i]?) ∧
      (∀ (i : ℕ) c d, cs[i]? = some c → out[i]? = some d →
        d.equalsTo = c.equalsTo ∧ (Sorted c.terms → Sorted d.terms)) ∧
      ∀ (x : ℕ → F) (old new : Fin ell → F),
        (∀ i c, cs[i.val]? = some c → old i = linLhs c x) →
        (∀ i d, out[i.val]? = some d → new i = linLhs d x) →
        phi F ell ∣ (polyOf new - polyOf old) -
          (v.zipIdx.map fun p => polyOf p.1.c * polyOf (block ell x idx p.2)).sum := by
  unfold expandConstraints
  rw [slice_all, Res.ok_bind]
  obtain ⟨out, h, ha⟩ := expandLoop_spec v cs idx hcs
  refine ⟨out, h, ha.len, ha.rest, ?_, ?_⟩
  · intro i c d hc hd
    by_cases hi : i < ell
    · obtain ⟨d', hd', h1, h2, _⟩ := ha.row ⟨i, hi⟩ c hc
      rw [hd] at hd'
      obtain rfl := Option.some.inj hd'
      exact ⟨h1, h2⟩
    · rw [ha.rest i (by omega), hc] at hd
      obtain rfl := Option.some.inj hd
      exact ⟨rfl, id⟩
  · intro x old new hold hnew
    have hnew2 : (fun i => new i - old i) = (dotBlk v x idx).c := by
      funext i
      have hi : i.val < cs.length := lt_of_lt_of_le i.2 hcs
      obtain ⟨d, hd, _, _, hl⟩ := ha.row i cs[i.val] (List.getElem?_eq_getElem hi)
      rw [hnew i d hd, hold i _ (List.getElem?_eq_getElem hi), hl x]
      ring
    rw [Elt.polyOf_sub, hnew2, ← AdjoinRoot.mk_eq_mk, ← mk_dotBlk]
    rfl

/-- **C37.** The constraints say what they should: `ell` empty constraints, expanded with `v` and
with right-hand sides set to the element `e`, are all satisfied by an assignment exactly when
`Σ_k v_k·x_k = e` modulo `X^ell+1`. -/
theorem C37_meaning [NeZero ell] (idx : ℕ) (v : List (Elt F ell)) (e : Elt F ell) :
    ∃ cs out, expandConstraints (List.replicate ell ⟨[], 0⟩) idx v = .ok cs ∧
      setEqsTo cs e = .ok out ∧ out.length = ell ∧
      ∀ x : ℕ → F, (∀ c ∈ out, LinSat c x) ↔
        phi F ell ∣ (v.zipIdx.map fun p => polyOf p.1.c * polyOf (block ell x idx p.2)).sum -
          polyOf e.c := by
  obtain ⟨cs, h, ha⟩ := expandLoop_spec v (List.replicate ell ⟨[], (0 : F)⟩) idx (by simp)
  have hlen : cs.length = ell := by rw [ha.len]; simp
  refine ⟨cs, cs.mapIdx fun j c => if j < ell then { c with equalsTo := e.coeff j } else c, ?_, ?_,
    by simpa using hlen, ?_⟩
  · unfold expandConstraints
    rw [slice_all, Res.ok_bind, h]
  · unfold setEqsTo
    rw [if_neg (by omega)]
  · intro x
    rw [← AdjoinRoot.mk_eq_mk, ← mk_dotBlk]
    have hrow : ∀ i : Fin ell, ∃ d, cs[i.val]? = some d ∧ linLhs d x = (dotBlk v x idx).c i := by
      intro i
      obtain ⟨d, hd, _, _, hl⟩ := ha.row i ⟨[], 0⟩ (by
        rw [List.getElem?_replicate, if_pos i.2])
      exact ⟨d, hd, by rw [hl x]; simp [linLhs]⟩
    have hall : (∀ c ∈ cs.mapIdx fun j c => if j < ell then { c with equalsTo := e.coeff j } else c,
        LinSat c x) ↔ ∀ i : Fin ell, (dotBlk v x idx).c i = e.c i := by
      constructor
      · intro hs i
        obtain ⟨d, hd, hl⟩ := hrow i
        have := hs { d with equalsTo := e.coeff i.val } (by
          apply List.mem_of_getElem? (i := i.val)
          rw [List.getElem?_mapIdx, hd]
          simp only [if_pos i.2, Option.map_some])
        rw [← hl, ← Elt.coeff_fin]
        exact this
      · intro hs c hc
        obtain ⟨i, hi⟩ := List.getElem?_of_mem hc
        rw [List.getElem?_mapIdx] at hi
        have hil : i < ell := by
          by_contra hge
          rw [List.getElem?_eq_none (by omega)] at hi
          simp at hi
        obtain ⟨d, hd, hl⟩ := hrow ⟨i, hil⟩
        simp only at hd
        rw [hd] at hi
        simp only [if_pos hil, Option.map_some, Option.some.injEq] at hi
        subst hi
        show linLhs d x = e.coeff i
        rw [hl, hs, Elt.coeff_lt _ hil]
    rw [hall]
    constructor
    · intro hs
      have : dotBlk v x idx = e := Elt.ext (funext hs)
      rw [this]; rfl
    · intro hs
      have : dotBlk v x idx = e := Elt.inRing_inj hs
      intro i; rw [this]

/-- **C37.** `makeConstraints(constrs,idx,v)` is the same for scalar variables: the left-hand side
of constraint `j` grows by `Σ_k coeff(v_k,j)·x_(idx+k)`. -/
theorem C37_make (cs : List (LinConstraint F)) (idx : ℕ) (v : List (Elt F ell))
    (hcs : ell ≤ cs.length) :
    ∃ out, makeConstraints cs idx v = .ok out ∧ out.length = cs.length ∧
      (∀ i, ell ≤ i → out[i]? = cs[i]?) ∧
      ∀ (j : Fin ell) c, cs[j.val]? = some c → ∃ d, out[j.val]? = some d ∧
        d.equalsTo = c.equalsTo ∧ (Sorted c.terms → Sorted d.terms) ∧
        ∀ x : ℕ → F, linLhs d x = linLhs c x +
          (v.zipIdx.map fun p => p.1.c j * x (idx + p.2)).sum := by
  obtain ⟨out, h, ha⟩ := makeConstraints_spec cs idx v v 0 none (slice_all v) hcs
  refine ⟨out, h, ha.len, ha.rest, ?_⟩
  intro j c hc
  obtain ⟨d, hd, h1, h2, h3⟩ := ha.row j c hc
  refine ⟨d, hd, h1, h2, fun x => ?_⟩
  rw [h3]
  have := makeRow_aux v idx 0 j x
  rw [Nat.add_zero] at this
  rw [← this]
  simp only [Elt.coeff_fin]

/-- **C37.** Slices: `expandConstraints(..,from,to)` and `makeConstraints(..,from,to)` within the
vector are the same as with the vector `v[from..to)`; a slice past the end of the vector is
undefined. -/
theorem C37_slice (cs : List (LinConstraint F)) (idx : ℕ) (v : List (Elt F ell)) (a b : ℕ) :
    (b ≤ v.length → expandConstraints cs idx v a (some b) =
      expandConstraints cs idx ((v.take b).drop a) ∧
      makeConstraints cs idx v a (some b) = makeConstraints cs idx ((v.take b).drop a)) ∧
    (a < b → v.length < b → ell ≤ cs.length → expandConstraints cs idx v a (some b) = .ub ∧
      makeConstraints cs idx v a (some b) = .ub) := by
  constructor
  · intro hb
    have : slice v a (some b) = .ok ((v.take b).drop a) := by
      unfold slice
      simp only [Option.getD_some]
      rw [if_neg (by omega)]
    unfold expandConstraints makeConstraints
    rw [this, slice_all]
    exact ⟨rfl, rfl⟩
  · intro h1 h2 h3
    have : slice v a (some b) = .ub := by
      unfold slice
      simp only [Option.getD_some]
      rw [if_pos ⟨h1, h2⟩]
    unfold expandConstraints makeConstraints
    rw [this, if_neg (by omega)]
    exact ⟨rfl, rfl⟩

/-- `(1+2X)·x = (4+3X)` over Z_101[X]/(X²+1) gives the constraints `x_7 - 2x_8 = 4`,
`2x_7 + x_8 = 3`. -/
example : (do let cs ← expandConstraints [⟨[], 0⟩, ⟨[], 0⟩] 7 [(⟨![1, 2]⟩ : Elt (ZMod 101) 2)]
              setEqsTo cs (⟨![4, 3]⟩ : Elt (ZMod 101) 2)) =
    .ok [⟨[(7, 1), (8, -2)], 4⟩, ⟨[(7, 2), (8, 1)], 3⟩] := by decide +kernel

/-! ### C40: vectors to maps -/

/-- **C40.** `addSVec2Map(map,v,offset)` stores `v[i]` at `offset+i` for every `i` (overwriting
what was there), and leaves all other indexes alone. -/
theorem C40_scalars (m : PtxtVec F) (hs : Sorted m) (v : List F) (offset : ℕ) :
    Sorted (addSVec2Map m v offset) ∧
    (∀ j, j ∈ keys (addSVec2Map m v offset) ↔
      (offset ≤ j ∧ j < offset + v.length) ∨ j ∈ keys m) ∧
    (∀ i a, v[i]? = some a → coef (addSVec2Map m v offset) (offset + i) = a) ∧
    (∀ j, ¬ (offset ≤ j ∧ j < offset + v.length) → coef (addSVec2Map m v offset) j = coef m j) := by
  unfold addSVec2Map
  obtain ⟨h1, h2, h3⟩ := putDown_spec v.reverse m (offset + v.length) hs (by simp)
  rw [List.length_reverse, Nat.add_sub_cancel] at h2 h3
  refine ⟨h1, h2, ?_, ?_⟩
  · intro i a hi
    have hil : i < v.length := (List.getElem?_eq_some_iff.1 hi).1
    rw [h3, if_pos (by omega), List.getD_eq_getElem?_getD, List.getElem?_reverse (by omega)]
    rw [show v.length - 1 - (offset + v.length - 1 - (offset + i)) = i by omega, hi]
    rfl
  · intro j hj
    rw [h3, if_neg hj]

/-- **C40.** `addEVec2Map(map,v,offset)` stores coefficient `j` of entry `i` at
`offset + ell·i + j`, and leaves all other indexes alone. -/
theorem C40_elements (m : PtxtVec F) (hs : Sorted m) (v : List (Elt F ell)) (offset : ℕ) :
    Sorted (addEVec2Map m v offset) ∧
    (∀ j, j ∈ keys (addEVec2Map m v offset) ↔
      (offset ≤ j ∧ j < offset + v.length * ell) ∨ j ∈ keys m) ∧
    (∀ i e (j : Fin ell), v[i]? = some e →
      coef (addEVec2Map m v offset) (offset + ell * i + j) = e.c j) ∧
    (∀ j, ¬ (offset ≤ j ∧ j < offset + v.length * ell) →
      coef (addEVec2Map m v offset) j = coef m j) := by
  have h : addEVec2Map m v offset = addSVec2Map m (coeffs v) offset := by
    unfold addEVec2Map addSVec2Map
    rw [coeffs_length]; rfl
  obtain ⟨h1, h2, h3, h4⟩ := C40_scalars m hs (coeffs v) offset
  rw [← h, coeffs_length] at *
  refine ⟨h1, h2, ?_, h4⟩
  intro i e j hi
  rw [Nat.add_assoc]
  exact h3 _ _ (coeffs_get v i j e hi)

example : addSVec2Map [(1, (5 : ZMod 101)), (3, 6), (9, 7)] [10, 20, 30] 2 =
    [(1, 5), (2, 10), (3, 20), (4, 30), (9, 7)] := by decide +kernel

end

/-- **C40.** `addRange2Set(set,from,len)` adds exactly the indexes `from .. from+len-1`, when
these are below 2^31. -/
theorem C40_range (s : List ℕ) (hs : SortedSet s) (from_ len : ℕ) (h : from_ + len < 2 ^ 31) :
    SortedSet (addRange2Set s from_ len) ∧
    ∀ j, j ∈ addRange2Set s from_ len ↔ (from_ ≤ j ∧ j < from_ + len) ∨ j ∈ s := by
  unfold addRange2Set
  refine ⟨setInsertAll_sorted _ _ hs, fun j => ?_⟩
  rw [setInsertAll_mem, Nat.mod_eq_of_lt (by unfold sizeMod; omega), toInt32_small (by omega),
    toInt32_small h]
  unfold interval
  rw [List.map_map]
  have : ((from_ + len : ℕ) : ℤ) - (from_ : ℤ) = (len : ℤ) := by push_cast; ring
  rw [this, Int.toNat_natCast]
  have hmem : j ∈ (List.range len).map ((fun i => (i % (sizeMod : ℤ)).toNat) ∘
      fun (i : ℕ) => (from_ : ℤ) + (i : ℤ)) ↔ from_ ≤ j ∧ j < from_ + len := by
    simp only [List.mem_map, List.mem_range, Function.comp]
    have hval : ∀ i : ℕ, i < len → (((from_ : ℤ) + (i : ℤ)) % (sizeMod : ℤ)).toNat = from_ + i := by
      intro i hi
      rw [Int.emod_eq_of_lt (by positivity) (by unfold sizeMod; push_cast; omega)]
      omega
    constructor
    · rintro ⟨i, hi, rfl⟩
      rw [hval i hi]; omega
    · rintro ⟨h1, h2⟩
      exact ⟨j - from_, by omega, by rw [hval _ (by omega)]; omega⟩
  rw [hmem]; tauto

/-- **C40, limit of the code.** `interval` works on `int`: a range that crosses 2^31 is lost. -/
theorem C40_range_overflow : addRange2Set [] (2 ^ 31 - 1) 2 = [] := by decide +kernel

example : addRange2Set [2, 5] 4 3 = [2, 4, 5, 6] := by decide +kernel

/-! ### C39: index ranges -/

/-- The blocks of variables in order, each with its length. -/
def layout (ix : Indexes) (kay ell enn tee : ℕ) : List (ℕ × ℕ) :=
  [(ix.dCompHi, 256), (ix.dPadHi, 4), (ix.dCompLo, 256), (ix.dPadLo, 4), (ix.rComp, 256),
   (ix.rPad, 4), (ix.eComp1Hi, 256), (ix.ePad1Hi, 4), (ix.eComp1Lo, 256), (ix.ePad1Lo, 4),
   (ix.eComp2Hi, 256), (ix.ePad2Hi, 4), (ix.eComp2Lo, 256), (ix.ePad2Lo, 4), (ix.sk2Comp, 256),
   (ix.sk2Pad, 4), (ix.kCompHi, 256), (ix.kPadHi, 4), (ix.kCompLo, 256), (ix.kPadLo, 4),
   (ix.sk1, kay * ell), (ix.sk2, kay * ell), (ix.r, kay * ell), (ix.pt1, tee), (ix.pt2, enn),
   (ix.y, 128), (ix.w, 1)]

/-- Consecutive blocks: each one starts where the previous one ends. -/
def Tiles : ℕ → List (ℕ × ℕ) → ℕ → Prop
  | a, [], b => a = b
  | a, p :: l, b => p.1 = a ∧ Tiles (p.1 + p.2) l b

theorem tiles_disjoint (l : List (ℕ × ℕ)) : ∀ a b, Tiles a l b → a ≤ b ∧
    (∀ p ∈ l, a ≤ p.1 ∧ p.1 + p.2 ≤ b) ∧ l.Pairwise fun p p' => p.1 + p.2 ≤ p'.1 := by
  induction l with
  | nil => intro a b h; simp only [Tiles] at h; subst h; simp
  | cons p l ih =>
    rintro a b ⟨h1, h2⟩
    obtain ⟨h3, h4, h5⟩ := ih _ _ h2
    refine ⟨by omega, ?_, List.pairwise_cons.2 ⟨fun q hq => (h4 q hq).1, h5⟩⟩
    intro q hq
    rcases List.mem_cons.1 hq with rfl | hq
    · omega
    · have := h4 q hq; omega

/-- **C39.** For all parameters whose indexes fit into an `int`, the 27 blocks of variables are
consecutive from 0 to the last index: they are ordered, adjacent and pairwise disjoint, and every
index up to the last belongs to exactly one of them. -/
theorem C39_layout (kay ell enn tee : ℕ) (ix : Indexes) (h : setIndexes kay ell enn tee = .ok ix) :
    Tiles 0 (layout ix kay ell enn tee) (ix.w + 1) ∧
    ((layout ix kay ell enn tee).Pairwise fun p p' => p.1 + p.2 ≤ p'.1) ∧
    (∀ j ≤ ix.w, ∃ p ∈ layout ix kay ell enn tee, p.1 ≤ j ∧ j < p.1 + p.2) ∧
    ix.w + 1 = 10 * (256 + 4) + 3 * (kay * ell) + tee + enn + 128 + 1 := by
  unfold setIndexes at h
  simp only at h
  split at h
  case isFalse => cases h
  obtain rfl := Res.ok.inj h
  have ht : Tiles 0 (layout (setIndexesNat kay ell enn tee) kay ell enn tee)
      ((setIndexesNat kay ell enn tee).w + 1) := by
    simp only [layout, Tiles, setIndexesNat, JLDIM, PAD_SIZE, LINYDIM, true_and]
  refine ⟨ht, (tiles_disjoint _ _ _ ht).2.2, ?_, ?_⟩
  · have cover : ∀ (l : List (ℕ × ℕ)) a b, Tiles a l b → ∀ j, a ≤ j → j < b →
        ∃ p ∈ l, p.1 ≤ j ∧ j < p.1 + p.2 := by
      intro l
      induction l with
      | nil => intro a b h j h1 h2; simp only [Tiles] at h; omega
      | cons p l ih =>
        rintro a b ⟨h1, h2⟩ j h3 h4
        by_cases hj : j < p.1 + p.2
        · exact ⟨p, List.mem_cons_self, by omega, hj⟩
        · obtain ⟨q, hq, h5⟩ := ih _ _ h2 j (by omega) h4
          exact ⟨q, List.mem_cons_of_mem _ hq, h5⟩
    intro j hj
    exact cover _ _ _ ht j (by omega) (by omega)
  · simp only [setIndexesNat, JLDIM, PAD_SIZE, LINYDIM]
    ring

/-- **C39.** The indexes exist exactly when the last one fits into an `int`. -/
theorem C39_defined (kay ell enn tee : ℕ) :
    (∃ ix, setIndexes kay ell enn tee = .ok ix) ↔
      10 * (256 + 4) + 3 * (kay * ell) + tee + enn + 128 < 2 ^ 31 := by
  unfold setIndexes
  have hw : (setIndexesNat kay ell enn tee).w = 10 * (256 + 4) + 3 * (kay * ell) + tee + enn + 128 := by
    simp only [setIndexesNat, JLDIM, PAD_SIZE, LINYDIM]; ring
  simp only [hw]
  constructor
  · rintro ⟨ix, h⟩
    by_contra hc
    rw [if_neg hc] at h
    cases h
  · intro h; rw [if_pos h]; exact ⟨_, rfl⟩

/-- **C39.** Preparing for the next proof only exchanges the two blocks of the secret keys: the
blocks are still pairwise disjoint. -/
theorem C39_swap (kay ell enn tee : ℕ) (ix : Indexes) (h : setIndexes kay ell enn tee = .ok ix) :
    (layout ix.swapSk kay ell enn tee).Perm (layout ix kay ell enn tee) := by
  unfold layout Indexes.swapSk
  simp only
  repeat' apply List.Perm.cons
  exact List.Perm.swap _ _ _

/-- **C39.** The generators: variable `i` has `G_i`; each of the 10·260 quadratic variables has
`H_i`, and the extra last variable `w` has `H_w`, at the last position of the list of H's. -/
theorem C39_generators {G : Type} (getG getH : ℕ → G) (kay ell enn tee : ℕ) (ix : Indexes)
    (h : setIndexes kay ell enn tee = .ok ix) :
    (computeGenerators getG getH ix).1.length = ix.w + 1 ∧
    (∀ i ≤ ix.w, (computeGenerators getG getH ix).1[i]? = some (getG i)) ∧
    (computeGenerators getG getH ix).2.length = 10 * (256 + 4) + 1 ∧
    (∀ i < 10 * (256 + 4), (computeGenerators getG getH ix).2[i]? = some (getH i)) ∧
    (computeGenerators getG getH ix).2[10 * (256 + 4)]? = some (getH ix.w) := by
  unfold setIndexes at h
  simp only at h
  split at h
  case isFalse => cases h
  obtain rfl := Res.ok.inj h
  have hsk : (setIndexesNat kay ell enn tee).sk1 = 10 * (256 + 4) := by
    simp only [setIndexesNat, JLDIM, PAD_SIZE]
  unfold computeGenerators
  simp only [hsk]
  refine ⟨by simp, ?_, by simp, ?_, ?_⟩
  · intro i hi
    rw [List.getElem?_map, List.getElem?_range (by omega)]; rfl
  · intro i hi
    rw [List.getElem?_append_left (by simpa using hi), List.getElem?_map, List.getElem?_range hi]
    rfl
  · rw [List.getElem?_append_right (by simp)]
    simp

example : (setIndexes 1000 2 64 30).bind (fun ix => Res.ok ix.w) = .ok 8822 := by decide +kernel

/-! ### C56: commitments to slices of vectors -/

section
variable {F G : Type} [Field F] [AddCommGroup G] [Module F G] {ell : ℕ}

/-- **C56.** `commit(v,genIdx,Gs,r,from,to)` on ring elements commits to all coefficients of
`v[from..to)`, in order, with the generators starting at `genIdx`. -/
theorem C56_elements (base : G) (v : List (Elt F ell)) (genIdx : ℕ) (Gs : List G) (r : F) (a b : ℕ)
    (hab : a ≤ b) (hb : b ≤ v.length) :
    (genIdx + ell * (b - a) ≤ Gs.length → commitE base v genIdx Gs r a (some b) =
      .ok (r • base + mexp (coeffs ((v.take b).drop a)) (Gs.drop genIdx))) ∧
    (Gs.length < genIdx + ell * (b - a) → commitE base v genIdx Gs r a (some b) = .throw) := by
  unfold commitE
  simp only [Option.getD_some]
  rw [if_neg (by omega)]
  have hlen : (coeffs ((v.take b).drop a)).length = ell * (b - a) := by
    rw [coeffs_length]; simp [Nat.min_eq_left hb, Nat.mul_comm]
  constructor
  · intro h
    rw [if_neg (by omega), if_neg (by omega)]
    unfold commit
    rw [evecScalars_eq, multiExp_ok (by simp; omega) (by omega)]
    simp only [Res.ok_bind, smul_zero, add_zero]
    rw [List.take_of_length_le (by omega : (coeffs ((v.take b).drop a)).length ≤ ell * (b - a)),
      mexp_take_right _ _ _ (by omega)]
  · intro h; rw [if_pos h]

/-- **C56.** `commit2` commits to the same values with respect to the sums `G_i + H_i`: it is the
product of a commitment with the Gs and one with the Hs. -/
theorem C56_double (base : G) (v : List (Elt F ell)) (genIdx : ℕ) (Gs Hs : List G) (r : F) (a b : ℕ)
    (hab : a ≤ b) (hb : b ≤ v.length) :
    (genIdx + ell * (b - a) ≤ Gs.length → genIdx + ell * (b - a) ≤ Hs.length →
      commit2E base v genIdx Gs Hs r a (some b) =
      .ok (r • base + mexp (coeffs ((v.take b).drop a)) (Gs.drop genIdx) +
        mexp (coeffs ((v.take b).drop a)) (Hs.drop genIdx))) ∧
    (Gs.length < genIdx + ell * (b - a) ∨ Hs.length < genIdx + ell * (b - a) →
      commit2E base v genIdx Gs Hs r a (some b) = .throw) := by
  unfold commit2E
  simp only [Option.getD_some]
  rw [if_neg (by omega)]
  have hlen : (coeffs ((v.take b).drop a)).length = ell * (b - a) := by
    rw [coeffs_length]; simp [Nat.min_eq_left hb, Nat.mul_comm]
  have hadd : ∀ (xs : List F) (gs hs : List G), gs.length = hs.length →
      mexp xs (List.zipWith (· + ·) gs hs) = mexp xs gs + mexp xs hs := by
    intro xs
    induction xs with
    | nil => simp
    | cons x xs ih =>
      intro gs hs hl
      cases gs with
      | nil => cases hs with
        | nil => simp
        | cons _ _ => simp at hl
      | cons g gs => cases hs with
        | nil => simp at hl
        | cons h hs =>
          simp only [List.zipWith_cons_cons, mexp_cons, ih gs hs (by simpa using hl), smul_add]
          abel
  constructor
  · intro h1 h2
    rw [if_neg (by omega), if_neg (by omega)]
    unfold commit
    rw [evecScalars_eq, multiExp_ok (by simp; omega) (by omega)]
    simp only [Res.ok_bind, smul_zero, add_zero]
    rw [List.take_of_length_le (by omega : (coeffs ((v.take b).drop a)).length ≤ ell * (b - a)),
      mexp_take_right _ _ _ (by omega), hadd _ _ _ (by simp; omega),
      mexp_take_right _ _ _ (by omega), mexp_take_right _ _ _ (by omega)]
    congr 1; abel
  · intro h; rw [if_pos h]

/-- **C56.** `commit` on scalars from index 0. -/
theorem C56_scalars (base : G) (v : List F) (genIdx : ℕ) (Gs : List G) (r : F) :
    (genIdx + v.length ≤ Gs.length → commitS base v genIdx Gs r =
      .ok (r • base + mexp v (Gs.drop genIdx))) ∧
    (Gs.length < genIdx + v.length → commitS base v genIdx Gs r = .throw) := by
  unfold commitS
  simp only [Option.getD_none]
  rw [if_neg (by omega)]
  constructor
  · intro h
    rw [if_neg (by omega), if_neg (by omega)]
    unfold commit
    rw [multiExp_ok (by simp; omega) (by simp)]
    simp only [Res.ok_bind, smul_zero, add_zero, Nat.sub_zero, List.drop_zero, List.take_length]
    rw [mexp_take_right _ _ _ (by omega)]
  · intro h; rw [if_pos (by omega)]

/-- **C56, disagreement with the code.** On scalars every non-empty slice that does not start at
0 writes out of bounds, although the interface offers `fromIdx`. -/
theorem C56_scalars_slice (base : G) (v : List F) (genIdx : ℕ) (Gs : List G) (r : F) (a b : ℕ)
    (ha : 0 < a) (hab : a < b) (h : genIdx + (b - a) ≤ Gs.length) :
    commitS base v genIdx Gs r a (some b) = .ub := by
  unfold commitS
  simp only [Option.getD_some]
  rw [if_neg (by omega), if_neg (by omega), if_pos ⟨hab, Or.inr ha⟩]

example : commitE (F := ℚ) (ell := 2) (100 : ℚ) [⟨![1, 2]⟩, ⟨![3, 4]⟩, ⟨![5, 6]⟩] 1 [7, 8, 9, 10, 11] 1 1
    (some 3) = .ok (100 + (3 * 8 + 4 * 9 + 5 * 10 + 6 * 11 : ℚ)) := by
  rw [(C56_elements (F := ℚ) (100 : ℚ) _ 1 _ 1 1 3 (by norm_num) (by simp)).1 (by simp)]
  norm_num [mexp, coeffs, List.ofFn_succ]

end

end Verif.Props
