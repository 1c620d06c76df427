/-
A vector whose coefficients are small enough fits its norm bound whatever the challenges are.
-/
import Verif.Lemmas.RegevTotal

namespace Verif
open Spec Regev
open scoped BigOperators

section
variable {q : ℕ} [Fact q.Prime]

theorem abs_le_of_cast {s : ZMod q} {z : ℤ} (h : (z : ZMod q) = s) : |s.valMinAbs| ≤ |z| := by
  have hq : NeZero q := ⟨(Fact.out : q.Prime).ne_zero⟩
  have := ZMod.natAbs_min_of_le_div_two q s.valMinAbs z (by rw [ZMod.coe_valMinAbs, h])
    (ZMod.natAbs_valMinAbs_le s)
  rw [Int.abs_eq_natAbs, Int.abs_eq_natAbs]
  exact_mod_cast this

theorem abs_add_le' (a b : ZMod q) : |(a + b).valMinAbs| ≤ |a.valMinAbs| + |b.valMinAbs| :=
  (abs_le_of_cast (z := a.valMinAbs + b.valMinAbs) (by push_cast; simp)).trans (abs_add_le _ _)

theorem abs_mul_tern (a : ZMod q) {t : ℤ} (ht : |t| ≤ 1) : |(a * (t : ZMod q)).valMinAbs| ≤ |a.valMinAbs| := by
  refine (abs_le_of_cast (z := a.valMinAbs * t) (by push_cast; simp)).trans ?_
  rw [abs_mul]
  nlinarith [abs_nonneg a.valMinAbs]

theorem abs_neg' (a : ZMod q) : |(-a).valMinAbs| ≤ |a.valMinAbs| :=
  (abs_le_of_cast (z := -a.valMinAbs) (by push_cast; simp)).trans (by rw [abs_neg])

/-- The coefficients of the product with a ternary element. -/
theorem abs_mul_elt (a : Elt (ZMod q) 2) {b : Elt (ZMod q) 2} (hb : ∀ k, ∃ t : ℤ, |t| ≤ 1 ∧ b.c k = t) (k : Fin 2) :
    |((a * b).c k).valMinAbs| ≤ |(a.c 0).valMinAbs| + |(a.c 1).valMinAbs| := by
  obtain ⟨t0, h0, e0⟩ := hb 0
  obtain ⟨t1, h1, e1⟩ := hb 1
  rw [Elt.mul_c]
  match k with
  | 0 =>
    have e : (∑ i : Fin 2, ∑ j : Fin 2, if i.val + j.val = (0 : Fin 2).val then a.c i * b.c j
        else if i.val + j.val = (0 : Fin 2).val + 2 then - (a.c i * b.c j) else 0) =
        a.c 0 * b.c 0 + -(a.c 1 * b.c 1) := by
      simp [Fin.sum_univ_two]
    rw [e, e0, e1]
    refine (abs_add_le' _ _).trans (add_le_add (abs_mul_tern _ h0) ((abs_neg' _).trans (abs_mul_tern _ h1)))
  | 1 =>
    have e : (∑ i : Fin 2, ∑ j : Fin 2, if i.val + j.val = (1 : Fin 2).val then a.c i * b.c j
        else if i.val + j.val = (1 : Fin 2).val + 2 then - (a.c i * b.c j) else 0) =
        a.c 0 * b.c 1 + a.c 1 * b.c 0 := by
      simp [Fin.sum_univ_two]
    rw [e, e0, e1]
    exact (abs_add_le' _ _).trans (add_le_add (abs_mul_tern _ h1) (abs_mul_tern _ h0))

theorem l1_eq (v : EVec q 2) :
    l1 v = ∑ i ∈ Finset.range v.length, (|((v.getD i 0).c 0).valMinAbs| + |((v.getD i 0).c 1).valMinAbs|) := by
  unfold l1
  induction v with
  | nil => simp [coeffs]
  | cons a v ih =>
    rw [List.length_cons, Finset.sum_range_succ']
    have : coeffs (a :: v) = [a.c 0, a.c 1] ++ coeffs v := by
      simp [coeffs, List.ofFn_succ]
    rw [this, List.map_append, List.sum_append, ih]
    simp
    ring

theorem abs_sum_le (n : ℕ) (f : ℕ → ZMod q) (g : ℕ → ℤ) (h : ∀ i < n, |(f i).valMinAbs| ≤ g i) :
    |(∑ i ∈ Finset.range n, f i).valMinAbs| ≤ ∑ i ∈ Finset.range n, g i := by
  induction n with
  | zero => simp
  | succ n ih =>
    rw [Finset.sum_range_succ, Finset.sum_range_succ]
    exact (abs_add_le' _ _).trans (add_le_add (ih fun i hi => h i (by omega)) (h n (by omega)))

theorem sum_c (n : ℕ) (f : ℕ → Elt (ZMod q) 2) (k : Fin 2) :
    (∑ i ∈ Finset.range n, f i).c k = ∑ i ∈ Finset.range n, (f i).c k := by
  induction n with
  | zero => simp
  | succ n ih => rw [Finset.sum_range_succ, Finset.sum_range_succ, ← ih]; rfl

/-- All entries of a matrix have coefficients in {-1,0,1}. -/
def IsTernary (ρ : ℕ → ℕ → Elt (ZMod q) 2) : Prop := ∀ i j k, ∃ t : ℤ, |t| ≤ 1 ∧ (ρ i j).c k = t

theorem ofBits_abs (a b : Bool) : |ofBits a b| ≤ 1 := by cases a <;> cases b <;> decide

theorem isTernary_ternaryOf (bytes : Bytes) (n m : ℕ) : IsTernary (ternaryOf (q := q) bytes n m) := fun _ _ _ =>
  ⟨_, ofBits_abs _ _, rfl⟩

theorem comp_le_left {n : ℕ} {v : EVec q 2} (hv : v.length = n) {ρ : ℕ → ℕ → Elt (ZMod q) 2} (hρ : IsTernary ρ)
    (j : ℕ) (k : Fin 2) :
    |((∑ i ∈ Finset.range n, v.getD i 0 * ρ i j).c k).valMinAbs| ≤ l1 v := by
  rw [sum_c, l1_eq, hv]
  exact abs_sum_le n _ _ fun i _ => abs_mul_elt _ (hρ i j) k

theorem comp_le_right {m : ℕ} {v : EVec q 2} (hv : v.length = m) {ρ : ℕ → ℕ → Elt (ZMod q) 2} (hρ : IsTernary ρ)
    (i : ℕ) (k : Fin 2) :
    |((∑ j ∈ Finset.range m, ρ i j * v.getD j 0).c k).valMinAbs| ≤ l1 v := by
  rw [sum_c, l1_eq, hv]
  exact abs_sum_le m _ _ fun j _ => by rw [mul_comm]; exact abs_mul_elt _ (hρ i j) k

/-- Every entry of the vector has coefficients of absolute value at most `L`. -/
def Below (v : EVec q 2) (L : ℤ) : Prop := ∀ e ∈ v, ∀ k, |(e.c k).valMinAbs| ≤ L

theorem below_left {n : ℕ} {v : EVec q 2} (hv : v.length = n) {ρ : ℕ → ℕ → Elt (ZMod q) 2} (hρ : IsTernary ρ)
    (m : ℕ) : Below (compressLeft n m v ρ) (l1 v) := by
  intro e he k
  obtain ⟨j, -, rfl⟩ := List.mem_map.1 he
  exact comp_le_left hv hρ j k

theorem below_right {m : ℕ} {v : EVec q 2} (hv : v.length = m) {ρ : ℕ → ℕ → Elt (ZMod q) 2} (hρ : IsTernary ρ)
    (n : ℕ) : Below (compressRight n m ρ v) (l1 v) := by
  intro e he k
  obtain ⟨j, -, rfl⟩ := List.mem_map.1 he
  exact comp_le_right hv hρ j k

theorem normSq_below {v : EVec q 2} {L : ℤ} (h : Below v L) (hv : v.length = 128) :
    normSq (coeffs v) ≤ 256 * L ^ 2 := by
  have := normSq_le_of_forall (L ^ 2) (coeffs v) ?_
  · rw [coeffs_length] at this
    have h128 : ((v.length * 2 : ℕ) : ℤ) = 256 := by rw [hv]; norm_num
    rwa [h128] at this
  · intro s hs
    obtain ⟨e, he, hs⟩ := List.mem_flatMap.1 hs
    obtain ⟨j, rfl⟩ := (List.mem_ofFn' _ _).1 hs
    have := h e he j
    rw [← sq_abs]
    have h0 := abs_nonneg (e.c j).valMinAbs
    nlinarith

theorem fits_of_l1 {P : Params q} {k : ℕ} {v : EVec q 2} {L : ℤ} (h : Below v L) (hv : v.length = 128)
    (hb : 16 * L ≤ normBound P k) : Fits P k v := by
  unfold Fits
  refine (normSq_below h hv).trans ?_
  have hL : 0 ≤ L := by
    have hne : v ≠ [] := by rintro rfl; simp at hv
    obtain ⟨e, v', rfl⟩ := List.exists_cons_of_ne_nil hne
    exact (abs_nonneg _).trans (h e (by simp) 0)
  nlinarith

theorem fits_hi {P : Params q} (hP : ParamsOk P) {k : ℕ} {v hi lo : EVec q 2} {L : ℤ} (h : Below v L)
    (hv : v.length = 128) (hd : breakTwoDigits v P.radix = .ok (hi, lo))
    (hb : 8 * (2 * L + P.radix) ≤ P.radix * normBound P k) : Fits P k hi := by
  have hq : NeZero q := ⟨(Fact.out : q.Prime).ne_zero⟩
  have hr := hP.radix
  have hs := (hP.small 1 (by norm_num)).1
  have hb1 : normBound P 1 = P.radix * 16 := rfl
  rw [hb1, abs_of_nonneg (by omega)] at hs
  obtain ⟨hi', lo', h1, h2, h3, h4⟩ := Props.C36_digits v P.radix hr (by omega)
  rw [hd] at h1
  obtain ⟨rfl, rfl⟩ := Prod.mk.inj (Res.ok.inj h1)
  set M := (normBound P k) / 16 with hM
  refine fits_of_l1 (L := M) ?_ (by omega) (by omega)
  intro e he j
  obtain ⟨i, hi', rfl⟩ := List.mem_iff_getElem.1 he
  obtain ⟨h, l, e1, e2, e3⟩ := h4 i _ (List.getElem?_eq_getElem (by omega))
  rw [List.getElem?_eq_getElem hi'] at e1
  obtain rfl := Option.some.inj e1
  obtain ⟨-, -, -, f⟩ := e3 j
  have hv' := h v[i] (List.getElem_mem _) j
  rw [hM, Int.le_ediv_iff_mul_le (by norm_num)]
  have h5 : P.radix * (16 * |(hi[i].c j).valMinAbs|) ≤ P.radix * normBound P k := by nlinarith
  have := le_of_mul_le_mul_left h5 (by omega : 0 < P.radix)
  linarith

theorem mask_abs (P : Params q) (rnd : ℕ → SmallRnd q) (i : ℕ) :
    ∀ s ∈ coeffs (smallMask P rnd i), |s.valMinAbs| ≤ 2 ^ P.smlnsBits - 1 := by
  intro s hs
  obtain ⟨e, he, hs⟩ := List.mem_flatMap.1 hs
  obtain ⟨j, rfl⟩ := (List.mem_ofFn' _ _).1 hs
  obtain ⟨k, -, rfl⟩ := List.mem_map.1 he
  refine (abs_le_of_cast rfl).trans ?_
  have h := Nat.mod_lt (((rnd i).y k j.val).1) (Nat.two_pow_pos P.smlnsBits)
  have h' : (((((rnd i).y k j.val).1 % 2 ^ P.smlnsBits : ℕ)) : ℤ) < 2 ^ P.smlnsBits := by exact_mod_cast h
  have h0 : (0 : ℤ) ≤ ((((rnd i).y k j.val).1 % 2 ^ P.smlnsBits : ℕ) : ℤ) := Int.natCast_nonneg _
  by_cases hb : ((rnd i).y k j.val).2
  · rw [if_pos hb, abs_neg, abs_of_nonneg h0]; omega
  · rw [if_neg hb, abs_of_nonneg h0]; omega

end
end Verif
