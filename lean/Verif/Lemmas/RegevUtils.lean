import Verif.Model.RegevUtils
import Verif.Spec.Regev
import Verif.Lemmas.Elt
import Verif.Lemmas.Constraints2
import Mathlib.Tactic.Linarith

namespace Verif
open Verif.Spec

section
variable {q : ℕ} [NeZero q]

theorem balanced_eq (s : ZMod q) : balanced s = s.valMinAbs := by
  unfold balanced
  rw [ZMod.valMinAbs_def_pos]
  by_cases h : s.val ≤ q / 2
  · rw [if_pos h, if_neg (by push Not; exact_mod_cast h)]
  · rw [if_neg h, if_pos (by push Not at h; show (q : ℤ) / 2 < (s.val : ℤ); exact_mod_cast h)]

theorem zipWith_self_mul (l : List ℤ) : (List.zipWith (· * ·) l l).sum = (l.map fun x => x ^ 2).sum := by
  rw [List.zipWith_self]
  congr 1
  apply List.map_congr_left
  intro a _; ring

theorem normSquaredS_eq (v : List (ZMod q)) : normSquaredS v = normSq v := by
  unfold normSquaredS normSquaredBI normSq
  simp only
  rw [zipWith_self_mul, List.map_map, List.map_map]
  congr 1
  apply List.map_congr_left
  intro s _
  simp only [Function.comp]
  rw [← balanced_eq]; rfl

omit [NeZero q] in
theorem evecScalars_eq {F : Type} {ell : ℕ} (v : List (Elt F ell)) : evecScalars v = coeffs v := rfl

theorem normSquaredE_eq {ell : ℕ} (v : List (Elt (ZMod q) ell)) :
    normSquaredE v = normSq (coeffs v) := normSquaredS_eq _

omit [NeZero q] in
theorem normSq_append (v w : List (ZMod q)) : normSq (v ++ w) = normSq v + normSq w := by
  simp [normSq]

omit [NeZero q] in
theorem normSq_nonneg (v : List (ZMod q)) : 0 ≤ normSq v := by
  apply List.sum_nonneg
  intro x hx
  obtain ⟨s, _, rfl⟩ := List.mem_map.1 hx
  positivity

theorem valMinAbs_cast (x : ℤ) (h : 2 * |x| < q) : (x : ZMod q).valMinAbs = x := by
  rw [ZMod.valMinAbs_spec]
  refine ⟨rfl, ?_⟩
  rcases abs_cases x with ⟨h1, h2⟩ | ⟨h1, h2⟩ <;> constructor <;> omega

end

theorem twoDigits_sum (x radix : ℤ) : (twoDigits x radix).2 + radix * (twoDigits x radix).1 = x := by
  have h1 : radix * ((x - x.fmod radix).fdiv radix) = x - x.fmod radix := by
    apply Int.mul_fdiv_cancel'
    exact ⟨x.fdiv radix, by have := Int.mul_fdiv_add_fmod x radix; linarith⟩
  unfold twoDigits
  simp only
  split
  · simp only; linarith
  · split
    · simp only; linarith
    · simp only; linarith

theorem twoDigits_spec (x radix : ℤ) (h : 0 < radix) :
    (twoDigits x radix).2 + radix * (twoDigits x radix).1 = x ∧
    -radix < 2 * (twoDigits x radix).2 ∧ 2 * (twoDigits x radix).2 ≤ radix := by
  have hm : x.fmod radix = x % radix := Int.fmod_eq_emod_of_nonneg _ h.le
  have h0 := Int.emod_nonneg x h.ne'
  have h1 := Int.emod_lt_of_pos x h
  have hx : x - x % radix = radix * (x / radix) := by
    have := Int.emod_add_mul_ediv x radix; linarith
  have hd : (x - x % radix).fdiv radix = x / radix := by
    rw [Int.fdiv_eq_ediv_of_nonneg _ h.le, hx, Int.mul_ediv_cancel_left _ h.ne']
  have hh : radix.fdiv 2 = radix / 2 := Int.fdiv_eq_ediv_of_nonneg _ (by norm_num)
  unfold twoDigits
  simp only [hm, hd, hh]
  split
  · refine ⟨?_, ?_, ?_⟩
    · simp only; linear_combination (-1) * hx
    · simp only; omega
    · simp only; omega
  · rw [if_neg (by omega)]
    refine ⟨?_, ?_, ?_⟩
    · simp only; linear_combination (-1) * hx
    · simp only; omega
    · simp only; omega

/-! ### Power vectors -/

theorem powerLoop_length {R : Type} [Mul R] (x p : R) (n : ℕ) : (powerLoop x p n).length = n := by
  induction n generalizing p with
  | zero => rfl
  | succ n ih => simp [powerLoop, ih]

theorem powerLoop_get {R : Type} [Monoid R] (x p : R) (n i : ℕ) (h : i < n) :
    (powerLoop x p n)[i]? = some (p * x ^ (i + 1)) := by
  induction n generalizing p i with
  | zero => omega
  | succ n ih =>
    cases i with
    | zero => simp [powerLoop]
    | succ i =>
      rw [powerLoop, List.getElem?_cons_succ, ih (p * x) i (by omega), pow_succ' x (i + 1), mul_assoc]

section
variable {F : Type} [Field F] [DecidableEq F] {ell : ℕ}

/-! ### Terms of constraints -/

omit [DecidableEq F] in
theorem linLhs_addTerm (c : LinConstraint F) (i : ℕ) (s : F) (x : ℕ → F) :
    linLhs (c.addTerm i s) x = linLhs c x + s * x i := by
  unfold linLhs LinConstraint.addTerm
  simp only
  generalize c.terms = m
  induction m with
  | nil => simp [addToKey]
  | cons p m ih =>
    unfold addToKey
    split
    · simp; ring
    · split
      · rename_i h; subst h; simp; ring
      · simp only [List.map_cons, List.sum_cons, ih]; ring

omit [DecidableEq F] in
theorem linLhs_foldl {α : Type} (l : List α) (f : α → ℕ) (g : α → F) (c : LinConstraint F)
    (x : ℕ → F) :
    linLhs (l.foldl (fun c j => c.addTerm (f j) (g j)) c) x =
      linLhs c x + (l.map fun j => g j * x (f j)).sum := by
  induction l generalizing c with
  | nil => simp
  | cons a l ih =>
    rw [List.foldl_cons, ih, linLhs_addTerm]
    simp only [List.map_cons, List.sum_cons]; ring

omit [DecidableEq F] in
theorem foldl_equalsTo {α : Type} (l : List α) (f : α → ℕ) (g : α → F) (c : LinConstraint F) :
    (l.foldl (fun c j => c.addTerm (f j) (g j)) c).equalsTo = c.equalsTo := by
  induction l generalizing c with
  | nil => rfl
  | cons a l ih => rw [List.foldl_cons, ih]; rfl

/-- The coefficients `x_idx .. x_(idx+ell-1)` as an element. -/
def blk (ell : ℕ) (x : ℕ → F) (idx : ℕ) : Elt F ell := ⟨fun j => x (idx + j)⟩

omit [DecidableEq F] in
theorem row_eq (a : Elt F ell) (x : ℕ → F) (idx : ℕ) (i : Fin ell) :
    ((List.range ell).map fun j =>
      (if i.val ≥ j then a.coeff (i.val - j) else - a.coeff (i.val + ell - j)) * x (idx + j)).sum =
      (a * blk ell x idx).c i := by
  rw [Elt.mul_c, Finset.sum_comm, ← List.sum_ofFn]
  congr 1
  apply List.ext_getElem (by simp)
  intro j h1 h2
  have hj : j < ell := by simpa using h1
  rw [List.getElem_map, List.getElem_range, List.getElem_ofFn]
  simp only [blk]
  by_cases hji : j ≤ i.val
  · rw [if_pos hji, Finset.sum_eq_single ⟨i.val - j, by omega⟩]
    · rw [if_pos (by simp only; omega), Elt.coeff_lt _ (by omega)]
    · intro k _ hk
      rw [if_neg (fun h => hk (Fin.ext (by simp only at h ⊢; omega))), if_neg (by omega)]
    · simp
  · rw [if_neg (by omega), Finset.sum_eq_single ⟨i.val + ell - j, by omega⟩]
    · rw [if_neg (by simp only; omega), if_pos (by simp only; omega), Elt.coeff_lt _ (by omega)]
      ring
    · intro k _ hk
      rw [if_neg (by omega), if_neg (fun h => hk (Fin.ext (by simp only at h ⊢; omega)))]
    · simp

omit [DecidableEq F] in
theorem linLhs_expandRow (a : Elt F ell) (idx : ℕ) (i : Fin ell) (c : LinConstraint F)
    (x : ℕ → F) :
    linLhs (expandRow a idx i.val c) x = linLhs c x + (a * blk ell x idx).c i := by
  unfold expandRow
  rw [linLhs_foldl, row_eq]

omit [DecidableEq F] in
theorem addTerm_sorted (c : LinConstraint F) (hs : Sorted c.terms) (i : ℕ) (s : F) :
    Sorted (c.addTerm i s).terms := by
  unfold LinConstraint.addTerm
  simp only
  generalize c.terms = m at hs
  induction m with
  | nil => simp [addToKey, Sorted]
  | cons p m ih =>
    unfold Sorted at *
    have hs' := List.pairwise_cons.1 hs
    unfold addToKey
    split
    · rename_i h
      exact List.pairwise_cons.2 ⟨fun q hq => by
        rcases List.mem_cons.1 hq with rfl | hq
        · exact h
        · exact lt_trans h (hs'.1 q hq), hs⟩
    · split
      · rename_i h1 h2
        exact List.pairwise_cons.2 ⟨fun q hq => hs'.1 q hq, hs'.2⟩
      · rename_i h1 h2
        refine List.pairwise_cons.2 ⟨fun q hq => ?_, ih hs'.2⟩
        have := (addToKey_keys m i s q.1).1 (List.mem_map_of_mem hq)
        rcases this with h | h
        · omega
        · obtain ⟨q', hq', he⟩ := List.mem_map.1 h
          have := hs'.1 q' hq'
          omega

omit [DecidableEq F] in
theorem foldl_sorted {α : Type} (l : List α) (f : α → ℕ) (g : α → F) (c : LinConstraint F)
    (hs : Sorted c.terms) : Sorted (l.foldl (fun c j => c.addTerm (f j) (g j)) c).terms := by
  induction l generalizing c with
  | nil => exact hs
  | cons a l ih => rw [List.foldl_cons]; exact ih _ (addTerm_sorted c hs _ _)

/-- What a step that only touches the left-hand sides of the first `ell` constraints does. -/
structure AddsElt (cs out : List (LinConstraint F)) (f : (ℕ → F) → Elt F ell) : Prop where
  len : out.length = cs.length
  rest : ∀ i, ell ≤ i → out[i]? = cs[i]?
  row : ∀ i : Fin ell, ∀ c, cs[i.val]? = some c → ∃ d, out[i.val]? = some d ∧
    d.equalsTo = c.equalsTo ∧ (Sorted c.terms → Sorted d.terms) ∧
    ∀ x, linLhs d x = linLhs c x + (f x).c i

omit [DecidableEq F] in
theorem AddsElt.trans {cs cs' out : List (LinConstraint F)} {f g : (ℕ → F) → Elt F ell}
    (h1 : AddsElt cs cs' f) (h2 : AddsElt cs' out g) : AddsElt cs out (fun x => f x + g x) where
  len := h2.len.trans h1.len
  rest i hi := (h2.rest i hi).trans (h1.rest i hi)
  row i c hc := by
    obtain ⟨d, hd, e1, s1, l1⟩ := h1.row i c hc
    obtain ⟨d', hd', e2, s2, l2⟩ := h2.row i d hd
    refine ⟨d', hd', e2.trans e1, fun h => s2 (s1 h), fun x => ?_⟩
    rw [l2, l1, Elt.add_c]; ring

omit [DecidableEq F] in
theorem expandElt_spec (cs : List (LinConstraint F)) (idx : ℕ) (a : Elt F ell)
    (h : ell ≤ cs.length) :
    ∃ out, expandElt cs idx a = .ok out ∧ AddsElt cs out (fun x => a * blk ell x idx) := by
  unfold expandElt
  rw [if_neg (by omega)]
  refine ⟨_, rfl, ⟨by simp, ?_, ?_⟩⟩
  · intro i hi
    rw [List.getElem?_mapIdx]
    simp only [if_neg (Nat.not_lt.2 hi)]
    simp
  · intro i c hc
    rw [List.getElem?_mapIdx, hc]
    simp only [if_pos i.2, Option.map_some]
    exact ⟨_, rfl, foldl_equalsTo _ _ _ _, foldl_sorted _ _ _ _, linLhs_expandRow a idx i c⟩

omit [DecidableEq F] in
theorem AddsElt.refl [NeZero ell] (cs : List (LinConstraint F)) :
    AddsElt cs cs (fun _ => (0 : Elt F ell)) :=
  ⟨rfl, fun _ _ => rfl, fun i c hc => ⟨c, hc, rfl, id, fun x => by simp⟩⟩

/-- `Σ_k v_k · x_k` for blocks of `ell` variables starting at `idx`. -/
def dotBlk (v : List (Elt F ell)) (x : ℕ → F) (idx : ℕ) : Elt F ell :=
  match v with
  | [] => 0
  | a :: v => a * blk ell x idx + dotBlk v x (idx + ell)

omit [DecidableEq F] in
theorem expandLoop_spec [NeZero ell] (v : List (Elt F ell)) :
    ∀ (cs : List (LinConstraint F)) (idx : ℕ), ell ≤ cs.length →
    ∃ out, expandLoop cs idx v = .ok out ∧ AddsElt cs out (fun x => dotBlk v x idx) := by
  induction v with
  | nil => intro cs idx _; exact ⟨cs, rfl, AddsElt.refl cs⟩
  | cons a v ih =>
    intro cs idx h
    obtain ⟨o1, h1, a1⟩ := expandElt_spec cs idx a h
    obtain ⟨o2, h2, a2⟩ := ih o1 (idx + ell) (by rw [a1.len]; exact h)
    exact ⟨o2, by rw [expandLoop, h1, Res.ok_bind, h2], a1.trans a2⟩

/-- `Σ_k x_k • v_k` for single variables starting at `idx`. -/
def dotVar (v : List (Elt F ell)) (x : ℕ → F) (idx : ℕ) : Elt F ell :=
  match v with
  | [] => 0
  | a :: v => x idx • a + dotVar v x (idx + 1)

omit [DecidableEq F] in
theorem makeRow_aux (s : List (Elt F ell)) (idx k : ℕ) (j : Fin ell) (x : ℕ → F) :
    ((s.zipIdx k).map fun p => p.1.coeff j.val * x (idx + p.2)).sum =
      (dotVar s x (idx + k)).c j := by
  induction s generalizing k with
  | nil => simp [dotVar]
  | cons a s ih =>
    rw [List.zipIdx_cons, List.map_cons, List.sum_cons, ih (k + 1), dotVar, Elt.add_c, Elt.smul_c,
      Elt.coeff_fin, Nat.add_assoc]
    ring

omit [DecidableEq F] in
theorem makeConstraints_spec (cs : List (LinConstraint F)) (idx : ℕ) (v s : List (Elt F ell))
    (from_ : ℕ) (upto : Option ℕ) (hs : slice v from_ upto = .ok s) (h : ell ≤ cs.length) :
    ∃ out, makeConstraints cs idx v from_ upto = .ok out ∧ AddsElt cs out (fun x => dotVar s x idx) := by
  unfold makeConstraints
  rw [if_neg (by omega), hs, Res.ok_bind]
  refine ⟨_, rfl, ⟨by simp, ?_, ?_⟩⟩
  · intro i hi
    rw [List.getElem?_mapIdx]
    simp only [if_neg (Nat.not_lt.2 hi)]
    simp
  · intro i c hc
    rw [List.getElem?_mapIdx, hc]
    simp only [if_pos i.2, Option.map_some]
    refine ⟨_, rfl, foldl_equalsTo _ _ _ _, foldl_sorted _ _ _ _, fun x => ?_⟩
    unfold makeRow
    rw [linLhs_foldl, makeRow_aux, Nat.add_zero]

/-! ### Maps -/

omit [Field F] [DecidableEq F] in
theorem mapPut_keys (m : List (ℕ × F)) (k : ℕ) (s : F) (j : ℕ) :
    j ∈ keys (mapPut m k s) ↔ j = k ∨ j ∈ keys m := by
  induction m with
  | nil => simp [mapPut, keys]
  | cons p m ih =>
    unfold mapPut
    split
    · simp [keys]
    · split
      · rename_i h; subst h; simp [keys]
      · simp only [keys, List.map_cons, List.mem_cons] at ih ⊢
        rw [ih]; tauto

omit [Field F] [DecidableEq F] in
theorem mapPut_sorted (m : List (ℕ × F)) (hs : Sorted m) (k : ℕ) (s : F) : Sorted (mapPut m k s) := by
  induction m with
  | nil => simp [mapPut, Sorted]
  | cons p m ih =>
    unfold Sorted at *
    have hs' := List.pairwise_cons.1 hs
    unfold mapPut
    split
    · rename_i h
      exact List.pairwise_cons.2 ⟨fun q hq => by
        rcases List.mem_cons.1 hq with rfl | hq
        · exact h
        · exact lt_trans h (hs'.1 q hq), hs⟩
    · split
      · exact List.pairwise_cons.2 ⟨fun q hq => hs'.1 q hq, hs'.2⟩
      · rename_i h1 h2
        refine List.pairwise_cons.2 ⟨fun q hq => ?_, ih hs'.2⟩
        rcases (mapPut_keys m k s q.1).1 (List.mem_map_of_mem hq) with h | h
        · omega
        · obtain ⟨q', hq', he⟩ := List.mem_map.1 h
          have := hs'.1 q' hq'
          omega

omit [DecidableEq F] in
theorem mapPut_coef (m : List (ℕ × F)) (hs : Sorted m) (k : ℕ) (s : F) (j : ℕ) :
    coef (mapPut m k s) j = if j = k then s else coef m j := by
  induction m with
  | nil => simp [mapPut, coef, eq_comm]
  | cons p m ih =>
    have hs' := List.pairwise_cons.1 hs
    unfold mapPut
    have hk0 : k ≤ p.1 → coef m k = 0 := fun h => coef_eq_zero _ _ fun hk => by
      obtain ⟨q', hq', he⟩ := List.mem_map.1 hk
      have := hs'.1 q' hq'
      omega
    split
    · rename_i h
      rw [coef_cons, coef_cons]
      by_cases hj : j = k
      · subst hj
        rw [if_pos rfl, if_pos rfl, if_neg (by omega), hk0 h.le]; simp
      · rw [if_neg (fun h => hj h.symm), if_neg hj]; simp
    · split
      · rename_i h1 h2
        subst h2
        rw [coef_cons, coef_cons]
        by_cases hj : j = p.1
        · subst hj; simp [hk0 le_rfl]
        · simp [hj, Ne.symm hj]
      · rename_i h1 h2
        rw [coef_cons, coef_cons, ih hs'.2]
        by_cases hj : j = k
        · subst hj; simp [Ne.symm h2]
        · simp [hj]

omit [DecidableEq F] in
theorem putDown_spec (l : List F) : ∀ (m : PtxtVec F) (key1 : ℕ), Sorted m → l.length ≤ key1 →
    Sorted (putDown m key1 l) ∧
    (∀ j, j ∈ keys (putDown m key1 l) ↔ (key1 - l.length ≤ j ∧ j < key1) ∨ j ∈ keys m) ∧
    (∀ j, coef (putDown m key1 l) j =
      if key1 - l.length ≤ j ∧ j < key1 then l.getD (key1 - 1 - j) 0 else coef m j) := by
  induction l with
  | nil =>
    intro m key1 hs _
    refine ⟨hs, fun j => ?_, fun j => ?_⟩
    · simp only [putDown, List.length_nil, Nat.sub_zero]
      constructor
      · exact Or.inr
      · rintro (h | h)
        · omega
        · exact h
    · simp only [putDown, List.length_nil, Nat.sub_zero]
      rw [if_neg (by omega)]
  | cons s l ih =>
    intro m key1 hs hl
    rw [List.length_cons] at hl
    obtain ⟨h1, h2, h3⟩ := ih (mapPut m (key1 - 1) s) (key1 - 1) (mapPut_sorted m hs _ _) (by omega)
    rw [putDown]
    refine ⟨h1, fun j => ?_, fun j => ?_⟩
    · rw [h2, mapPut_keys, List.length_cons]
      constructor
      · rintro (h | h | h)
        · left; omega
        · left; omega
        · right; exact h
      · rintro (h | h)
        · by_cases hj : j = key1 - 1
          · right; left; exact hj
          · left; omega
        · right; right; exact h
    · rw [h3, mapPut_coef m hs, List.length_cons]
      by_cases hj : j = key1 - 1
      · subst hj
        rw [if_neg (by omega), if_pos rfl, if_pos (by omega)]
        simp
      · by_cases hj2 : key1 - (l.length + 1) ≤ j ∧ j < key1
        · rw [if_pos (by omega), if_pos hj2,
            show key1 - 1 - j = (key1 - 1 - 1 - j) + 1 by omega, List.getD_cons_succ]
        · rw [if_neg (by omega), if_neg hj2, if_neg hj]

omit [Field F] [DecidableEq F] in
theorem coeffs_length (v : List (Elt F ell)) : (coeffs v).length = v.length * ell := by
  induction v with
  | nil => simp [coeffs]
  | cons a v ih =>
    simp only [coeffs, List.flatMap_cons, List.length_append, List.length_ofFn, List.length_cons] at ih ⊢
    rw [ih]; ring

omit [Field F] [DecidableEq F] in
theorem coeffs_get (v : List (Elt F ell)) (i : ℕ) (j : Fin ell) (e : Elt F ell)
    (h : v[i]? = some e) : (coeffs v)[ell * i + j.val]? = some (e.c j) := by
  induction v generalizing i with
  | nil => simp at h
  | cons a v ih =>
    simp only [coeffs, List.flatMap_cons] at ih ⊢
    cases i with
    | zero =>
      rw [List.getElem?_cons_zero] at h
      obtain rfl := Option.some.inj h
      rw [Nat.mul_zero, Nat.zero_add, List.getElem?_append_left (by simp)]
      simp
    | succ i =>
      rw [List.getElem?_cons_succ] at h
      rw [List.getElem?_append_right (by rw [List.length_ofFn, Nat.mul_succ]; omega),
        List.length_ofFn, show ell * (i + 1) + j.val - ell = ell * i + j.val by
          rw [Nat.mul_succ]; omega]
      exact ih i h

end

end Verif
