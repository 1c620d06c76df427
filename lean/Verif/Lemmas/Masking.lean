/-
One trial of the smallness proof as a function of its randomness; for C81.
-/
import Verif.Spec.Masking
import Verif.Lemmas.RegevTotal
import Verif.Props.Samplers

namespace Verif
open Spec Regev

section
variable {q : ℕ} [Fact q.Prime] {G : Type} [AddCommGroup G] [Module (ZMod q) G] [DecidableEq G]

/-- the outcome of one trial -/
theorem trial_eq {E : Env (ZMod q) G} (hE : LengthOk E) {P : Params q} {ix : Indexes} {Gs : List G}
    {mer : E.St} {w : EVec q 2} (rnd : ℕ → SmallRnd q) (hc : w.length = 1300)
    (hB : 0 ≤ P.B_smallness) (hG : ix.y + 128 ≤ Gs.length) (C : G) (z : EVec q 2) :
    (∃ t, smallLoop E P ix Gs mer w rnd 0 1 = .ok t ∧ t.yCom = C ∧ t.z = z) ↔
    (rnd 0).r • E.base + mexp (coeffs (smallMask P rnd 0)) (Gs.drop ix.y) = C ∧
    List.zipWith (· + ·) (compressLeft 1300 64 w (matrixFrom E (absorb E mer [("smallnessPf", C)]) "Smallness" 1300 64).1)
      (smallMask P rnd 0) = z ∧
    (∀ s ∈ coeffs (compressLeft 1300 64 w (matrixFrom E (absorb E mer [("smallnessPf", C)]) "Smallness" 1300 64).1),
      |s.valMinAbs| ≤ P.B_smallness.fdiv 128) ∧ (∀ s ∈ coeffs z, |s.valMinAbs| ≤ P.B_smallness) := by
  have hy : (smallMask P rnd 0).length = 64 := by simp [smallMask]
  have e : ((List.range (LINYDIM / 2)).map fun i => boundedElement P.smlnsBits ((rnd 0).y i)) =
      smallMask P rnd 0 := rfl
  have hB' : 0 ≤ P.B_smallness.fdiv LINYDIM := Int.fdiv_nonneg hB (by norm_num)
  rw [smallLoop]
  simp only
  rw [e, commitE_total (by rw [hy]; exact hG), Res.ok_bind]
  obtain ⟨R, a1, hR⟩ := newTernaryE_total hE (E.processPoint mer (str "smallnessPf")
    ((rnd 0).r • E.base + mexp (coeffs (smallMask P rnd 0)) (Gs.drop ix.y))) (str "Smallness")
    (n := 10 * (JLDIM + PAD_SIZE) / 2) (m := LINYDIM / 2) (by decide) (by decide) (by decide)
  rw [a1, Res.ok_bind]
  simp only
  obtain ⟨u, b1, b2, b3⟩ := hR.left w hc
  rw [b1, Res.ok_bind]
  have b2' : u.length = 64 := b2
  unfold vecAdd
  rw [if_neg (by omega), Res.ok_bind]
  have hu : u = compressLeft 1300 64 w (matrixFrom E (absorb E mer [("smallnessPf",
      (rnd 0).r • E.base + mexp (coeffs (smallMask P rnd 0)) (Gs.drop ix.y))]) "Smallness" 1300 64).1 :=
    eq_compressLeft b2' b3
  have hA : (lInftyNorm u ≤ P.B_smallness.fdiv LINYDIM ∧
      lInftyNorm (List.zipWith (· + ·) u (smallMask P rnd 0)) ≤ P.B_smallness) ↔
      (∀ s ∈ coeffs u, |s.valMinAbs| ≤ P.B_smallness.fdiv LINYDIM) ∧
      ∀ s ∈ coeffs (List.zipWith (· + ·) u (smallMask P rnd 0)), |s.valMinAbs| ≤ P.B_smallness := by
    rw [lInfty_le _ _ hB', lInfty_le _ _ hB]
  constructor
  · rintro ⟨t, h1, h2, h3⟩
    by_cases hA' : lInftyNorm u ≤ P.B_smallness.fdiv LINYDIM ∧
      lInftyNorm (List.zipWith (· + ·) u (smallMask P rnd 0)) ≤ P.B_smallness
    · rw [if_pos hA'] at h1
      have := Res.ok.inj h1
      subst this
      simp only at h2 h3
      subst h3
      rw [← h2, ← hu]
      exact ⟨rfl, rfl, (hA.1 hA').1, (hA.1 hA').2⟩
    · rw [if_neg hA'] at h1
      simp [smallLoop] at h1
  · rintro ⟨h1, h2, h3, h4⟩
    rw [← h1, ← hu] at h2 h3
    rw [if_pos (hA.2 ⟨h3, by rw [h2]; exact h4⟩)]
    exact ⟨_, rfl, h1, h2⟩

/-! ### Coefficients -/

theorem forall_coeffs (v : EVec q 2) (hv : v.length = 64) (p : ZMod q → Prop) :
    (∀ s ∈ coeffs v, p s) ↔ ∀ (i : Fin 64) (j : Fin 2), p ((v.getD i 0).c j) := by
  unfold coeffs
  constructor
  · intro h i j
    apply h
    rw [List.mem_flatMap]
    refine ⟨v.getD i 0, ?_, ?_⟩
    · rw [List.getD_eq_getElem _ _ (by omega)]; exact List.getElem_mem _
    · rw [List.mem_ofFn]; exact ⟨j, rfl⟩
  · intro h s hs
    rw [List.mem_flatMap] at hs
    obtain ⟨e, he, hs⟩ := hs
    obtain ⟨i, hi, rfl⟩ := List.getElem_of_mem he
    rw [List.mem_ofFn] at hs
    obtain ⟨j, rfl⟩ := hs
    have := h ⟨i, by omega⟩ j
    rwa [List.getD_eq_getElem _ _ hi] at this

theorem ofCoeffs_length (z : Fin 64 → Fin 2 → ZMod q) : (ofCoeffs z).length = 64 := by simp [ofCoeffs]

theorem ofCoeffs_get (z : Fin 64 → Fin 2 → ZMod q) (i : Fin 64) : (ofCoeffs z).getD i 0 = ⟨z i⟩ := by
  rw [List.getD_eq_getElem _ _ (by rw [ofCoeffs_length]; exact i.2)]
  exact List.getElem_ofFn _

theorem ofCoeffs_surj (v : EVec q 2) (hv : v.length = 64) : ofCoeffs (fun i j => (v.getD i 0).c j) = v := by
  apply List.ext_getElem
  · rw [ofCoeffs_length, hv]
  · intro i h1 h2
    refine (List.getElem_ofFn _).trans ?_
    simp only
    rw [List.getD_eq_getElem _ _ h2]

theorem ofCoeffs_inj {z z' : Fin 64 → Fin 2 → ZMod q} (h : ofCoeffs z = ofCoeffs z') : z = z' := by
  funext i
  have := congrArg (fun v : EVec q 2 => v.getD i 0) h
  simp only [ofCoeffs_get] at this
  exact congrArg Elt.c this

theorem zip_ofCoeffs (u z : Fin 64 → Fin 2 → ZMod q) :
    List.zipWith (· + ·) (ofCoeffs u) (ofCoeffs z) = ofCoeffs fun i j => u i j + z i j := by
  apply List.ext_getElem
  · simp [ofCoeffs]
  · intro i h1 h2
    simp only [ofCoeffs, List.getElem_zipWith, List.getElem_ofFn]
    rfl

/-- the coefficients of the mask -/
def maskOf (n : ℕ) (m : Fin 64 → Fin 2 → Fin (2 ^ n) × Bool) : Fin 64 → Fin 2 → ZMod q :=
  fun i j => boundedScalar n (m i j).1 (m i j).2

theorem smallMask_stream (P : Params q) (ρ : TrialCoins P.smlnsBits q) :
    smallMask P (fun _ => ρ.stream) 0 = ofCoeffs (maskOf P.smlnsBits ρ.1) := by
  apply List.ext_getElem
  · simp [smallMask, ofCoeffs]
  · intro i h1 h2
    have hi : i < 64 := by simpa [smallMask] using h1
    simp only [smallMask, ofCoeffs, List.getElem_map, List.getElem_range, List.getElem_ofFn]
    apply Elt.ext
    funext j
    simp only [boundedElement, TrialCoins.stream, maskOf]
    rw [dif_pos ⟨hi, j.2⟩]

/-- one trial with the given randomness, coefficient by coefficient -/
theorem trial_iff {E : Env (ZMod q) G} (hE : LengthOk E) {P : Params q} {ix : Indexes} {Gs : List G}
    {mer : E.St} {w : EVec q 2} (hc : w.length = 1300) (hB : 0 ≤ P.B_smallness)
    (hG : ix.y + 128 ≤ Gs.length) (C : G) (z : Fin 64 → Fin 2 → ZMod q) (ρ : TrialCoins P.smlnsBits q) :
    (∃ t, smallLoop E P ix Gs mer w (fun _ => ρ.stream) 0 1 = .ok t ∧ t.yCom = C ∧ t.z = ofCoeffs z) ↔
    ρ.2 • E.base + mexp (coeffs (ofCoeffs (maskOf (q := q) P.smlnsBits ρ.1))) (Gs.drop ix.y) = C ∧
    ((∀ i j, maskOf P.smlnsBits ρ.1 i j = z i j - product E mer w C i j) ∧
    CoeffsWithin (P.B_smallness.fdiv 128) (product E mer w C) ∧ CoeffsWithin P.B_smallness z) := by
  rw [trial_eq hE (fun _ => ρ.stream) hc hB hG C, smallMask_stream]
  have hu : compressLeft 1300 64 w (matrixFrom E (absorb E mer [("smallnessPf", C)]) "Smallness" 1300 64).1 =
      ofCoeffs (product E mer w C) := by
    unfold product
    rw [ofCoeffs_surj _ (by simp [compressLeft])]
  rw [hu, zip_ofCoeffs, forall_coeffs _ (ofCoeffs_length _), forall_coeffs _ (ofCoeffs_length _)]
  simp only [ofCoeffs_get]
  refine and_congr_right' (and_congr_left' ?_)
  constructor
  · intro h i j
    have := congrFun (congrFun (ofCoeffs_inj h) i) j
    rw [← this]; ring
  · intro h
    congr 1
    funext i j
    rw [h]; ring

theorem accept_iff {E : Env (ZMod q) G} (hE : LengthOk E) {P : Params q} {ix : Indexes} {Gs : List G}
    {mer : E.St} {w : EVec q 2} (hc : w.length = 1300) (hB : 0 ≤ P.B_smallness)
    (hG : ix.y + 128 ≤ Gs.length) (C : G) (ρ : TrialCoins P.smlnsBits q) :
    (∃ t, smallLoop E P ix Gs mer w (fun _ => ρ.stream) 0 1 = .ok t ∧ t.yCom = C) ↔
    ρ.2 • E.base + mexp (coeffs (ofCoeffs (maskOf (q := q) P.smlnsBits ρ.1))) (Gs.drop ix.y) = C ∧
    (CoeffsWithin (P.B_smallness.fdiv 128) (product E mer w C) ∧
      ∀ i j, |(product E mer w C i j + maskOf P.smlnsBits ρ.1 i j).valMinAbs| ≤ P.B_smallness) := by
  constructor
  · rintro ⟨t, h1, h2⟩
    have h3 := (trial_eq hE (fun _ => ρ.stream) hc hB hG C t.z).1 ⟨t, h1, h2, rfl⟩
    have hl : t.z.length = 64 := by
      rw [← h3.2.1]; simp [compressLeft, smallMask]
    obtain ⟨a, b, c, d⟩ := (trial_iff hE hc hB hG C (fun i j => (t.z.getD i 0).c j) ρ).1
      ⟨t, h1, h2, (ofCoeffs_surj _ hl).symm⟩
    refine ⟨a, c, fun i j => ?_⟩
    have e : product E mer w C i j + maskOf P.smlnsBits ρ.1 i j = (t.z.getD i 0).c j := by
      rw [b]; ring
    rw [e]
    exact d i j
  · rintro ⟨a, c, d⟩
    obtain ⟨t, h1, h2, -⟩ := (trial_iff hE hc hB hG C
      (fun i j => product E mer w C i j + maskOf P.smlnsBits ρ.1 i j) ρ).2 ⟨a, fun i j => by ring, c, d⟩
    exact ⟨t, h1, h2⟩

/-! ### Counting -/

open Classical in
theorem card_coins {α : Type} [Fintype α] (p : α → Prop) (m : α → G) (base C : G)
    (hB : Function.Bijective (fun s : ZMod q => s • base)) :
    (Finset.univ.filter fun ρ : α × ZMod q => ρ.2 • base + m ρ.1 = C ∧ p ρ.1).card =
      (Finset.univ.filter p).card := by
  refine Finset.card_bij (fun ρ _ => ρ.1) ?_ ?_ ?_
  · intro ρ h; simpa using (Finset.mem_filter.1 h).2.2
  · intro ρ h ρ' h' e
    have h1 := (Finset.mem_filter.1 h).2.1
    have h2 := (Finset.mem_filter.1 h').2.1
    refine Prod.ext e (hB.1 ?_)
    simp only
    rw [← e, ← h1] at h2
    exact (add_right_cancel h2).symm
  · intro a h
    obtain ⟨r, hr⟩ := hB.2 (C - m a)
    simp only at hr
    refine ⟨(a, r), ?_, rfl⟩
    rw [Finset.mem_filter]
    refine ⟨Finset.mem_univ _, ?_, (Finset.mem_filter.1 h).2⟩
    simp only [hr]
    abel

open Classical in
/-- independent conditions on the entries of a table -/
theorem card_table {β : Type} [Fintype β] (p : Fin 64 → Fin 2 → β → Prop) :
    (Finset.univ.filter fun m : Fin 64 → Fin 2 → β => ∀ i j, p i j (m i j)).card =
      ∏ i, ∏ j, (Finset.univ.filter (p i j)).card := by
  rw [Finset.prod_congr rfl fun i _ => (Fintype.card_piFinset (fun j => Finset.univ.filter (p i j))).symm,
    ← Fintype.card_piFinset]
  congr 1
  ext m
  simp [Fintype.mem_piFinset]

/-- the integers of absolute value at most `B`, as residues -/
theorem card_within (B : ℕ) (hq : 2 * B < q) :
    (Finset.univ.filter fun x : ZMod q => |x.valMinAbs| ≤ (B : ℤ)).card = 2 * B + 1 := by
  have : (Finset.Icc (-(B : ℤ)) B).card = 2 * B + 1 := by simp; omega
  rw [← this]
  have hz : NeZero q := ⟨by omega⟩
  refine Finset.card_bij (fun x _ => x.valMinAbs) ?_ ?_ ?_
  · intro x h
    have := (Finset.mem_filter.1 h).2
    rw [Finset.mem_Icc]
    exact abs_le.1 this
  · intro x _ y _ h
    rw [← ZMod.coe_valMinAbs x, ← ZMod.coe_valMinAbs y, h]
  · intro a h
    rw [Finset.mem_Icc] at h
    have e : ((a : ZMod q)).valMinAbs = a := by
      rw [ZMod.valMinAbs_spec]
      exact ⟨rfl, by constructor <;> omega⟩
    refine ⟨(a : ZMod q), ?_, e⟩
    rw [Finset.mem_filter, e]
    exact ⟨Finset.mem_univ _, abs_le.2 h⟩

theorem valMinAbs_sub_le (x u : ZMod q) : |(x - u).valMinAbs| ≤ |x.valMinAbs| + |u.valMinAbs| := by
  have := ZMod.natAbs_valMinAbs_add_le x (-u)
  rw [← sub_eq_add_neg] at this
  have h2 : (-u).valMinAbs.natAbs = u.valMinAbs.natAbs := ZMod.natAbs_valMinAbs_neg u
  have h3 := Int.natAbs_add_le x.valMinAbs (-u).valMinAbs
  rw [Int.abs_eq_natAbs, Int.abs_eq_natAbs, Int.abs_eq_natAbs]
  omega

/-- the weight of a small reply -/
theorem weight_small {n : ℕ} {B c : ℤ} (h : B + c < 2 ^ n) {x u : ZMod q} (hx : |x.valMinAbs| ≤ B)
    (hu : |u.valMinAbs| ≤ c) : boundedWeight n (x - u) = if x = u then 2 else 1 := by
  unfold boundedWeight
  have := valMinAbs_sub_le x u
  by_cases e : x = u
  · rw [if_pos (sub_eq_zero.2 e), if_pos e]
  · rw [if_neg (sub_ne_zero.2 e), if_neg e, if_pos (by omega)]

open Classical in
/-- the number of masks of one coefficient with which it stays small -/
theorem card_mask {n : ℕ} (hq : 2 ^ (n + 1) ≤ q) {B : ℕ} {c : ℤ} (h : (B : ℤ) + c < 2 ^ n) (hc : c ≤ B) {u : ZMod q}
    (hu : |u.valMinAbs| ≤ c) :
    (Finset.univ.filter fun p : Fin (2 ^ n) × Bool =>
      |(u + boundedScalar n p.1 p.2).valMinAbs| ≤ (B : ℤ)).card = 2 * B + 2 := by
  have hc0 : 0 ≤ c := le_trans (abs_nonneg _) hu
  have hB2 : 2 * B < q := by
    have : (B : ℤ) < 2 ^ n := by omega
    have : B < 2 ^ n := by exact_mod_cast this
    rw [pow_succ] at hq
    omega
  have hz : NeZero q := ⟨by omega⟩
  have step : (Finset.univ.filter fun p : Fin (2 ^ n) × Bool =>
      |(u + boundedScalar n p.1 p.2).valMinAbs| ≤ (B : ℤ)).card =
      ∑ x ∈ Finset.univ.filter (fun x : ZMod q => |x.valMinAbs| ≤ (B : ℤ)),
        (Finset.univ.filter fun p : Fin (2 ^ n) × Bool => boundedScalar n p.1 p.2 = x - u).card := by
    rw [Finset.card_eq_sum_card_fiberwise (f := fun p : Fin (2 ^ n) × Bool => u + boundedScalar n p.1 p.2)
      (t := Finset.univ.filter (fun x : ZMod q => |x.valMinAbs| ≤ (B : ℤ)))]
    · refine Finset.sum_congr rfl fun x hx => ?_
      congr 1
      ext p
      have hx' := (Finset.mem_filter.1 hx).2
      simp only [Finset.mem_filter, Finset.mem_univ, true_and]
      constructor
      · rintro ⟨-, rfl⟩; ring
      · intro e
        have : u + boundedScalar n p.1 p.2 = x := by rw [e]; ring
        rw [this]; exact ⟨hx', rfl⟩
    · intro p hp
      simpa using hp
  rw [step, Finset.sum_congr rfl (g := fun x => if x = u then 2 else 1)
    (fun x hx => by rw [Props.C76_bounded hq, weight_small h (Finset.mem_filter.1 hx).2 hu])]
  have e2 : ∀ x : ZMod q, (if x = u then 2 else 1) = 1 + if x = u then 1 else 0 := by
    intro x; split_ifs <;> rfl
  rw [Finset.sum_congr rfl fun x _ => e2 x, Finset.sum_add_distrib, Finset.sum_ite_eq', if_pos, Finset.sum_const,
    card_within B hB2]
  · simp
  · rw [Finset.mem_filter]
    exact ⟨Finset.mem_univ _, hu.trans hc⟩

end
end Verif
