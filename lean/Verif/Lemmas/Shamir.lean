import Verif.Model.Shamir
import Verif.Spec.Shamir
import Mathlib.LinearAlgebra.Lagrange
import Mathlib.LinearAlgebra.Dual.Lemmas
import Mathlib.Tactic.Ring
import Mathlib.Tactic.LinearCombination

namespace Verif
open Polynomial Spec
variable {F : Type} [Field F]

/-- polynomial with the given coefficients, constant term first -/
noncomputable def toPoly : List F → F[X]
  | [] => 0
  | c :: cs => C c + X * toPoly cs

theorem eval_toPoly (cs : List F) (x : F) : (toPoly cs).eval x = evalCoeffs cs x := by
  induction cs with
  | nil => simp [toPoly, evalCoeffs]
  | cons c cs ih => simp [toPoly, evalCoeffs, ih]

theorem coeff_toPoly (cs : List F) (i : Nat) : (toPoly cs).coeff i = cs.getD i 0 := by
  induction cs generalizing i with
  | nil => simp [toPoly]
  | cons c cs ih =>
    cases i with
    | zero => simp [toPoly]
    | succ i => simp [toPoly, coeff_X_mul, ih, coeff_C]

theorem degree_toPoly (cs : List F) : (toPoly cs).degree < cs.length := by
  rw [degree_lt_iff_coeff_zero]
  intro m hm
  rw [coeff_toPoly, List.getD_eq_getElem?_getD, List.getElem?_eq_none hm]; rfl

theorem toPoly_ofFn (p : F[X]) (t : Nat) (h : p.degree < t) :
    toPoly (List.ofFn fun i : Fin t => p.coeff i) = p := by
  ext i
  rw [coeff_toPoly, List.getD_eq_getElem?_getD]
  by_cases hi : i < t
  · simp [hi]
  · rw [List.getElem?_eq_none (by simpa using hi)]
    exact ((degree_lt_iff_coeff_zero p t).1 h i (by omega)).symm

theorem toPoly_inj (cs ds : List F) (hl : cs.length = ds.length) (h : toPoly cs = toPoly ds) : cs = ds := by
  apply List.ext_getElem hl
  intro i h1 h2
  have := congrArg (fun p => p.coeff i) h
  simpa [coeff_toPoly, h1, h2] using this

/-! ### newSharing -/

theorem newSharing_eq (pts : List Int) (rs : List F) (s : F) :
    newSharing pts rs s = (toPoly (sharingCoeffs rs s)).eval 0 ::
      pts.map fun (x : Int) => (toPoly (sharingCoeffs rs s)).eval (x : F) := by
  unfold newSharing
  simp [eval_toPoly]

theorem eval_zero_sharing (rs : List F) (s : F) : (toPoly (sharingCoeffs rs s)).eval 0 = s := by
  simp [sharingCoeffs, toPoly]

theorem degree_sharing (rs : List F) (s : F) :
    (toPoly (sharingCoeffs rs s)).degree < ((rs.length + 1 : Nat) : WithBot Nat) := by
  have := degree_toPoly (sharingCoeffs rs s)
  simpa [sharingCoeffs] using this

theorem filter_mem_sublist (sub pts : List Int) (hs : sub.Sublist pts) (hn : pts.Nodup) :
    pts.filter (fun x => x ∈ sub) = sub := by
  induction hs with
  | slnil => rfl
  | @cons l1 l2 a h ih =>
    rw [List.nodup_cons] at hn
    rw [List.filter_cons_of_neg]
    · exact ih hn.2
    · intro ha
      exact hn.1 (h.subset (by simpa using ha))
  | @cons_cons l1 l2 a h ih =>
    rw [List.nodup_cons] at hn
    rw [List.filter_cons_of_pos (by simp)]
    congr 1
    refine Eq.trans ?_ (ih hn.2)
    apply List.filter_congr
    intro x hx
    have hxa : x ≠ a := by rintro rfl; exact hn.1 hx
    simp [hxa]

/-- shares of a value vector -/
theorem sharesAt_eq (pts : List Int) (a : F) (f : Int → F) (sub : List Int)
    (hs : sub.Sublist pts) (hn : pts.Nodup) :
    sharesAt pts (a :: pts.map f) sub = sub.map f := by
  unfold sharesAt
  rw [List.tail_cons]
  have h1 : pts.zip (pts.map f) = pts.map fun x => (x, f x) := by
    apply List.ext_getElem
    · simp
    · intro i h1 h2; simp
  have h2 : pts.filter (fun x => x ∈ sub) = sub := filter_mem_sublist sub pts hs hn
  rw [h1, List.filter_map, List.map_map]
  have : ((fun p : Int × F => decide (p.1 ∈ sub)) ∘ fun x => (x, f x)) = fun x => decide (x ∈ sub) := rfl
  rw [this, h2]
  rfl

/-! ### Lagrange -/
variable [DecidableEq F]

omit [DecidableEq F] in
theorem lagrangeInner_eq (xi : Int) (l : List Int) (a b : F)
    (hr : ∀ xj ∈ l, -2 ^ 31 ≤ xj - xi ∧ xj - xi < 2 ^ 31) :
    lagrangeInner xi l a b = .ok (a * ((l.filter (· ≠ xi)).map fun (x : Int) => (x : F)).prod,
      b * ((l.filter (· ≠ xi)).map fun (x : Int) => ((x - xi : Int) : F)).prod) := by
  induction l generalizing a b with
  | nil => simp [lagrangeInner]
  | cons xj l ih =>
    rw [lagrangeInner]
    have hj := hr xj (by simp)
    by_cases h : xi = xj
    · rw [if_neg (by simpa using h), ih _ _ (fun x hx => hr x (by simp [hx])),
        List.filter_cons_of_neg (by simp [h])]
    · rw [if_pos h, if_neg (by omega), ih _ _ (fun x hx => hr x (by simp [hx])),
        List.filter_cons_of_pos (by simpa using Ne.symm h)]
      simp only [List.map_cons, List.prod_cons, mul_assoc]

theorem lagrangeOuter_eq (R l : List Int)
    (hr : ∀ xi ∈ l, ∀ xj ∈ R, -2 ^ 31 ≤ xj - xi ∧ xj - xi < 2 ^ 31)
    (hd : ∀ xi ∈ l, ∀ xj ∈ R, xi ≠ xj → (xi : F) ≠ (xj : F)) :
    lagrangeOuter R l = .ok (l.map fun xi =>
      ((R.filter (· ≠ xi)).map fun (x : Int) => (x : F)).prod /
        ((R.filter (· ≠ xi)).map fun (x : Int) => ((x - xi : Int) : F)).prod) := by
  induction l with
  | nil => rfl
  | cons xi l ih =>
    rw [lagrangeOuter, lagrangeInner_eq xi R 1 1 (hr xi (by simp))]
    simp only [Res.ok_bind, one_mul]
    rw [if_neg, ih (fun x hx => hr x (by simp [hx])) (fun x hx => hd x (by simp [hx]))]
    · rfl
    · rw [List.prod_eq_zero_iff]
      intro h
      obtain ⟨xj, hxj, h⟩ := List.mem_map.1 h
      have := List.mem_filter.1 hxj
      have hne : xj ≠ xi := by simpa using this.2
      rw [Int.cast_sub, sub_eq_zero] at h
      exact hd xi (by simp) xj this.1 (Ne.symm hne) h.symm

omit [DecidableEq F] in
theorem lagrange_zero (R : List Int) (hn : R.Nodup)
    (hd : ∀ xi ∈ R, ∀ xj ∈ R, xi ≠ xj → (xi : F) ≠ (xj : F))
    (p : F[X]) (hp : p.degree < R.length) :
    (R.map fun (xi : Int) => (((R.filter (· ≠ xi)).map fun (x : Int) => (x : F)).prod /
        ((R.filter (· ≠ xi)).map fun (x : Int) => ((x - xi : Int) : F)).prod) * p.eval (xi : F)).sum
      = p.eval 0 := by
  have hinj : Set.InjOn (fun x : Int => (x : F)) (R.toFinset : Set Int) := by
    intro a ha b hb hab
    by_contra hne
    exact hd a (by simpa using ha) b (by simpa using hb) hne hab
  have hcard : R.toFinset.card = R.length := List.toFinset_card_of_nodup hn
  have hint := Lagrange.eq_interpolate_of_eval_eq (s := R.toFinset) (v := fun x : Int => (x : F))
    (fun x => p.eval (x : F)) hinj (by rw [hcard]; exact hp) (fun i _ => rfl)
  conv_rhs => rw [hint]
  rw [Lagrange.interpolate_apply, eval_finset_sum, List.sum_toFinset _ hn]
  congr 1
  apply List.map_congr_left
  intro xi hxi
  rw [eval_mul, eval_C, mul_comm]
  congr 1
  unfold Lagrange.basis Lagrange.basisDivisor
  rw [eval_prod]
  have herase : R.toFinset.erase xi = (R.filter (· ≠ xi)).toFinset := by
    ext x; simp [and_comm]
  have hnf : (R.filter (· ≠ xi)).Nodup := hn.filter _
  rw [herase, List.prod_toFinset _ hnf]
  clear herase
  clear hnf
  induction R.filter (· ≠ xi) with
  | nil => simp
  | cons a l ih =>
    simp only [List.map_cons, List.prod_cons]
    rw [← ih, mul_div_mul_comm]
    congr 1
    simp only [eval_mul, eval_C, eval_sub, eval_X, zero_sub, Int.cast_sub]
    rw [div_eq_mul_inv, ← neg_sub (a : F) (xi : F), inv_neg]
    ring

/-- getSecret on the values of a polynomial -/
theorem getSecret_eval (R : List Int) (hn : R.Nodup)
    (hr : ∀ xi ∈ R, ∀ xj ∈ R, -2 ^ 31 ≤ xj - xi ∧ xj - xi < 2 ^ 31)
    (hd : ∀ xi ∈ R, ∀ xj ∈ R, xi ≠ xj → (xi : F) ≠ (xj : F))
    (p : F[X]) (hp : p.degree < R.length) :
    getSecret (R.map fun (x : Int) => p.eval (x : F)) R = .ok (p.eval 0) := by
  unfold getSecret lagrangeCoeffs
  rw [lagrangeOuter_eq R R hr hd]
  simp only [Res.ok_bind, Res.pure_eq]
  congr 1
  rw [← lagrange_zero R hn hd p hp]
  unfold ntlInnerProduct
  congr 1
  apply List.ext_getElem
  · simp
  · intro i h1 h2; simp

/-! ### parity check -/
omit [DecidableEq F]

theorem genRow_getD (ep : F) (k : Nat) (cur : F) (j : Nat) (hj : j < k) :
    (genRow ep k cur).getD j 0 = cur * ep ^ j := by
  induction k generalizing cur j with
  | zero => omega
  | succ k ih =>
    cases j with
    | zero => simp [genRow]
    | succ j => rw [genRow, List.getD_cons_succ, ih _ _ (by omega), pow_succ]; ring

/-- All entries of the generating matrix. -/
theorem genMatrix_entry (pts : List Int) (t : Nat) (i j : Nat) (hi : i < pts.length + 1) (hj : j < t) :
    ((((1 :: List.replicate (t - 1) 0) :: pts.map fun (ep : Int) => genRow (ep : F) t 1).getD i []).getD j 0)
      = ((((0 : F) :: pts.map fun (x : Int) => (x : F)))[i]'(by simpa using hi)) ^ j := by
  cases i with
  | zero =>
    simp only [List.getD_cons_zero, List.getElem_cons_zero]
    cases j with
    | zero => simp
    | succ j =>
      rw [List.getD_cons_succ, List.getD_eq_getElem?_getD, List.getElem?_replicate,
        if_pos (by omega)]
      simp
  | succ i =>
    have hi' : i < pts.length := by omega
    simp only [List.getD_cons_succ, List.getElem_cons_succ, List.getElem_map]
    rw [List.getD_eq_getElem?_getD (l := List.map _ pts)]
    simp only [List.getElem?_map, List.getElem?_eq_getElem hi', Option.map_some, Option.getD_some]
    rw [genRow_getD _ _ _ _ hj, one_mul]

/-- double annihilator: orthogonal to everything orthogonal to the columns = combination of
the columns -/
theorem mem_span_cols {n t : Nat} (G : Fin n → Fin t → F) (v : Fin n → F)
    (h : ∀ x : Fin n → F, (∀ j, ∑ i, x i * G i j = 0) → ∑ i, x i * v i = 0) :
    ∃ c : Fin t → F, ∀ i, v i = ∑ j, c j * G i j := by
  classical
  by_contra hne
  let W : Submodule F (Fin n → F) := LinearMap.range
    ({ toFun := fun c => fun i => ∑ j, c j * G i j
       map_add' := by intro a b; funext i; simp [add_mul, Finset.sum_add_distrib]
       map_smul' := by intro a b; funext i; simp [Finset.mul_sum, mul_assoc] } : (Fin t → F) →ₗ[F] (Fin n → F))
  have hv : v ∉ W := by
    rintro ⟨c, hc⟩
    exact hne ⟨c, fun i => by rw [← hc]; rfl⟩
  obtain ⟨f, hf1, hf2⟩ := Submodule.exists_le_ker_of_notMem hv
  have hrep : ∀ y : Fin n → F, f y = ∑ i, f (Pi.single i 1) * y i := by
    intro y
    conv_lhs => rw [← Finset.univ_sum_single y]
    rw [map_sum]
    apply Finset.sum_congr rfl
    intro i _
    have : (Pi.single i (y i) : Fin n → F) = y i • Pi.single i 1 := by
      rw [← Pi.single_smul, smul_eq_mul, mul_one]
    rw [this, map_smul, smul_eq_mul, mul_comm]
  apply hf1
  rw [hrep]
  apply h
  intro j
  have hm : (fun i => G i j) ∈ W := by
    refine ⟨Pi.single j 1, ?_⟩
    funext i
    simp only [LinearMap.coe_mk, AddHom.coe_mk]
    rw [Finset.sum_eq_single j]
    · simp
    · intro b _ hb; simp [Pi.single_apply, hb]
    · simp
  have := hf2 hm
  rw [LinearMap.mem_ker, hrep] at this
  exact this

end Verif
