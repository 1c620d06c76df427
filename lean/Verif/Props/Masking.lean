/-
C81: what the masked reply of the smallness proof reveals about the masked vector.
-/
import Verif.Lemmas.Masking
import Verif.Lemmas.Hybrid
import Verif.Props.Bounds
import Verif.Props.RegevProofs

namespace Verif.Props
open Verif Spec Regev

section
variable {q : ℕ} [Fact q.Prime] {G : Type} [AddCommGroup G] [Module (ZMod q) G] [DecidableEq G]

/-- C81.  One trial, for every vector: every pair of a commitment and a reply that passes the two size
checks (of the product and of the reply) comes about for as many choices of the randomness as the
product over the 128 coefficients of: two where the reply equals the product itself, one elsewhere.  No
other pair ever comes about.  (`hq`, `hfit`: the masks neither wrap around nor are too small; the library
ensures both, `C81_setting`.  `hB`: the base point generates the group.) -/
theorem C81_reply {E : Env (ZMod q) G} (hE : LengthOk E) (hB : Function.Bijective (fun s : ZMod q => s • E.base))
    {P : Params q} (hq : 2 ^ (P.smlnsBits + 1) ≤ q) (hB0 : 0 ≤ P.B_smallness)
    (hfit : P.B_smallness + P.B_smallness.fdiv 128 < 2 ^ P.smlnsBits) {ix : Indexes} {Gs : List G}
    (hG : ix.y + 128 ≤ Gs.length) (st : E.St) {w : EVec q 2} (hw : w.length = 1300) (C : G)
    (z : Fin 64 → Fin 2 → ZMod q) :
    (CoeffsWithin (P.B_smallness.fdiv 128) (product E st w C) ∧ CoeffsWithin P.B_smallness z →
      replyCount E P ix Gs st w C z = ∏ i, ∏ j, if z i j = product E st w C i j then 2 else 1) ∧
    (¬ (CoeffsWithin (P.B_smallness.fdiv 128) (product E st w C) ∧ CoeffsWithin P.B_smallness z) →
      replyCount E P ix Gs st w C z = 0) := by
  classical
  have e : replyCount E P ix Gs st w C z = (Finset.univ.filter fun m =>
      (∀ i j, maskOf P.smlnsBits m i j = z i j - product E st w C i j) ∧
      CoeffsWithin (P.B_smallness.fdiv 128) (product E st w C) ∧ CoeffsWithin P.B_smallness z).card := by
    have k := card_coins (fun m => (∀ i j, maskOf P.smlnsBits m i j = z i j - product E st w C i j) ∧
      CoeffsWithin (P.B_smallness.fdiv 128) (product E st w C) ∧ CoeffsWithin P.B_smallness z)
      (fun m => mexp (coeffs (ofCoeffs (maskOf (q := q) P.smlnsBits m))) (Gs.drop ix.y)) E.base C hB
    refine Eq.trans ?_ (k.trans ?_)
    · unfold replyCount
      congr 1
      ext ρ
      simp only [Finset.mem_filter, Finset.mem_univ, true_and]
      exact trial_iff hE hw hB0 hG C z ρ
    · congr 1
      ext m
      simp only [Finset.mem_filter]
  rw [e]
  constructor
  · intro h
    have k := card_table (fun i j (p : Fin (2 ^ P.smlnsBits) × Bool) =>
      boundedScalar P.smlnsBits p.1 p.2 = z i j - product E st w C i j)
    refine Eq.trans ?_ (k.trans ?_)
    · congr 1
      ext m
      simp only [Finset.mem_filter, Finset.mem_univ, true_and]
      exact ⟨fun k => k.1, fun k => ⟨k, h⟩⟩
    refine Finset.prod_congr rfl fun i _ => Finset.prod_congr rfl fun j _ => ?_
    have := C76_bounded hq (z i j - product E st w C i j)
    rw [weight_small hfit (h.2 i j) (h.1 i j)] at this
    rw [← this]
    congr 1
    ext p
    simp
  · intro h
    rw [Finset.card_eq_zero, Finset.filter_eq_empty_iff]
    exact fun m _ k => h k.2

/-- C81.  Whether a trial is accepted says nothing about the vector beyond that its product with the
challenge matrix passes the size check: if it does, then for every commitment exactly `(2B+2)^128` choices
of the randomness lead to acceptance, and none otherwise. -/
theorem C81_rate {E : Env (ZMod q) G} (hE : LengthOk E) (hB : Function.Bijective (fun s : ZMod q => s • E.base))
    {P : Params q} (hq : 2 ^ (P.smlnsBits + 1) ≤ q) (hB0 : 0 ≤ P.B_smallness)
    (hfit : P.B_smallness + P.B_smallness.fdiv 128 < 2 ^ P.smlnsBits) {ix : Indexes} {Gs : List G}
    (hG : ix.y + 128 ≤ Gs.length) (st : E.St) {w : EVec q 2} (hw : w.length = 1300) (C : G) :
    (CoeffsWithin (P.B_smallness.fdiv 128) (product E st w C) →
      (acceptCount E P ix Gs st w C : ℤ) = (2 * P.B_smallness + 2) ^ 128) ∧
    (¬ CoeffsWithin (P.B_smallness.fdiv 128) (product E st w C) → acceptCount E P ix Gs st w C = 0) := by
  classical
  obtain ⟨B, hBe⟩ := Int.eq_ofNat_of_zero_le hB0
  have e : acceptCount E P ix Gs st w C = (Finset.univ.filter fun m =>
      CoeffsWithin (P.B_smallness.fdiv 128) (product E st w C) ∧
      ∀ i j, |(product E st w C i j + maskOf P.smlnsBits m i j).valMinAbs| ≤ P.B_smallness).card := by
    have k := card_coins (fun m => CoeffsWithin (P.B_smallness.fdiv 128) (product E st w C) ∧
        ∀ i j, |(product E st w C i j + maskOf P.smlnsBits m i j).valMinAbs| ≤ P.B_smallness)
      (fun m => mexp (coeffs (ofCoeffs (maskOf (q := q) P.smlnsBits m))) (Gs.drop ix.y)) E.base C hB
    refine Eq.trans ?_ (k.trans ?_)
    · unfold acceptCount
      congr 1
      ext ρ
      simp only [Finset.mem_filter, Finset.mem_univ, true_and]
      exact accept_iff hE hw hB0 hG C ρ
    · congr 1
      ext m
      simp only [Finset.mem_filter]
  rw [e]
  constructor
  · intro h
    have k := card_table (fun i j (p : Fin (2 ^ P.smlnsBits) × Bool) =>
      |(product E st w C i j + boundedScalar P.smlnsBits p.1 p.2).valMinAbs| ≤ P.B_smallness)
    have hc : P.B_smallness.fdiv 128 ≤ B := by
      rw [Int.fdiv_eq_ediv_of_nonneg _ (by norm_num)]; omega
    refine (congrArg Nat.cast (Eq.trans ?_ (k.trans (Finset.prod_congr rfl (g := fun _ => ∏ j : Fin 2, (2 * B + 2))
      fun i _ => Finset.prod_congr rfl fun j _ => ?_)))).trans ?_
    · congr 1
      ext m
      simp only [Finset.mem_filter, Finset.mem_univ, true_and]
      exact ⟨fun k => k.2, fun k => ⟨h, k⟩⟩
    · rw [← card_mask hq (B := B) (c := P.B_smallness.fdiv 128) (by rw [← hBe]; exact hfit) hc (h i j)]
      congr 1
      ext p
      simp [hBe]
    simp only [Finset.prod_const, Finset.card_univ, Fintype.card_fin]
    rw [← pow_mul, hBe]
    push_cast
    rfl
  · intro h
    rw [Finset.card_eq_zero, Finset.filter_eq_empty_iff]
    exact fun m _ k => h k.1

/-- C81.  Statistical hiding: for two vectors whose products with the challenge matrix of the commitment `C`
both pass the size check, the numbers of choices of the randomness that lead to the replies differ, summed over
all replies, by at most `256·(2B+2)^127` - a fraction `128/(B+1)` of the `(2B+2)^128` accepting choices. -/
theorem C81_hiding {E : Env (ZMod q) G} (hE : LengthOk E) (hB : Function.Bijective (fun s : ZMod q => s • E.base))
    {P : Params q} (hq : 2 ^ (P.smlnsBits + 1) ≤ q) (hB0 : 0 ≤ P.B_smallness)
    (hfit : P.B_smallness + P.B_smallness.fdiv 128 < 2 ^ P.smlnsBits) {ix : Indexes} {Gs : List G}
    (hG : ix.y + 128 ≤ Gs.length) (st : E.St) {w w' : EVec q 2} (hw : w.length = 1300) (hw' : w'.length = 1300) (C : G)
    (hp : CoeffsWithin (P.B_smallness.fdiv 128) (product E st w C))
    (hp' : CoeffsWithin (P.B_smallness.fdiv 128) (product E st w' C)) :
    ∑ z, |(replyCount E P ix Gs st w C z : ℤ) - replyCount E P ix Gs st w' C z| ≤
      256 * (2 * P.B_smallness + 2) ^ 127 := by
  classical
  obtain ⟨B, hBe⟩ := Int.eq_ofNat_of_zero_le hB0
  have hc : P.B_smallness.fdiv 128 ≤ B := by
    rw [Int.fdiv_eq_ediv_of_nonneg _ (by norm_num)]; omega
  have hc0 : 0 ≤ P.B_smallness.fdiv 128 := Int.fdiv_nonneg hB0 (by norm_num)
  have hB2 : 2 * B < q := by
    have : (B : ℤ) < 2 ^ P.smlnsBits := by omega
    have : B < 2 ^ P.smlnsBits := by exact_mod_cast this
    rw [pow_succ] at hq
    omega
  obtain ⟨a, ha⟩ : ∃ a : (Fin 64 → Fin 2 → ZMod q) → Fin 64 → Fin 2 → ZMod q → ℤ, ∀ u i j x,
    a u i j x = if |x.valMinAbs| ≤ (B : ℤ) then (if x = u i j then 2 else 1) else 0 := ⟨_, fun _ _ _ _ => rfl⟩
  have cnt : ∀ w : EVec q 2, w.length = 1300 → CoeffsWithin (P.B_smallness.fdiv 128) (product E st w C) → ∀ z,
      (replyCount E P ix Gs st w C z : ℤ) = ∏ i, ∏ j, a (product E st w C) i j (z i j) := by
    intro w hw hp z
    obtain ⟨r1, r2⟩ := C81_reply hE hB hq hB0 hfit hG st hw C z
    by_cases hz : CoeffsWithin P.B_smallness z
    · rw [r1 ⟨hp, hz⟩]
      push_cast
      refine Finset.prod_congr rfl fun i _ => Finset.prod_congr rfl fun j _ => ?_
      rw [ha, if_pos (show |(z i j).valMinAbs| ≤ (B : ℤ) by rw [← hBe]; exact hz i j)]
    · rw [r2 fun h => hz h.2]
      unfold CoeffsWithin at hz
      push Not at hz
      obtain ⟨i, j, hij⟩ := hz
      refine (Finset.prod_eq_zero (Finset.mem_univ i) (Finset.prod_eq_zero (Finset.mem_univ j) ?_)).symm
      rw [ha, if_neg (show ¬ |(z i j).valMinAbs| ≤ (B : ℤ) by rw [← hBe]; omega)]
  have nn : ∀ u i j x, 0 ≤ a u i j x := by
    intro u i j x; rw [ha]; split_ifs <;> norm_num
  have tot : ∀ u, CoeffsWithin (P.B_smallness.fdiv 128) u → ∀ i j, ∑ x, a u i j x = 2 * P.B_smallness + 2 := by
    intro u hu i j
    have e2 : ∀ x : ZMod q, a u i j x = (if |x.valMinAbs| ≤ (B : ℤ) then 1 else 0) + if x = u i j then 1 else 0 := by
      intro x
      rw [ha]
      by_cases hx : x = u i j
      · have : |x.valMinAbs| ≤ (B : ℤ) := by rw [hx]; exact (hu i j).trans hc
        rw [if_pos this, if_pos this, if_pos hx, if_pos hx]; norm_num
      · rw [if_neg hx, if_neg hx]; simp
    rw [Finset.sum_congr rfl fun x _ => e2 x, Finset.sum_add_distrib, Finset.sum_ite_eq', if_pos (Finset.mem_univ _),
      ← Finset.sum_filter, Finset.sum_const, card_within B hB2, hBe]
    simp
    ring
  have dist : ∀ u v, CoeffsWithin (P.B_smallness.fdiv 128) u → CoeffsWithin (P.B_smallness.fdiv 128) v → ∀ i j,
      ∑ x, |a u i j x - a v i j x| ≤ 2 := by
    intro u v hu hv i j
    have e2 : ∀ x : ZMod q, |a u i j x - a v i j x| ≤ (if x = u i j then 1 else 0) + if x = v i j then 1 else 0 := by
      intro x
      rw [ha, ha]
      by_cases hx : |x.valMinAbs| ≤ (B : ℤ)
      · rw [if_pos hx, if_pos hx]
        split_ifs <;> norm_num
      · rw [if_neg hx, if_neg hx]
        split_ifs <;> norm_num
    refine (Finset.sum_le_sum fun x _ => e2 x).trans ?_
    rw [Finset.sum_add_distrib, Finset.sum_ite_eq', Finset.sum_ite_eq', if_pos (Finset.mem_univ _),
      if_pos (Finset.mem_univ _)]
    norm_num
  rw [Finset.sum_congr rfl fun z _ => by rw [cnt w hw hp z, cnt w' hw' hp' z]]
  have hT : 0 ≤ 2 * P.B_smallness + 2 := by omega
  have := hybrid_table (2 * P.B_smallness + 2) 2 hT 64 1 (a (product E st w C)) (a (product E st w' C))
    (nn _) (nn _) (tot _ hp) (tot _ hp') (dist _ _ hp hp')
  refine this.trans (le_of_eq ?_)
  generalize 2 * P.B_smallness + 2 = T
  rw [← pow_mul]
  push_cast
  ring

/-- C81.  The hiding is not perfect: the numbers of choices agree for all replies only if the two products are
equal, because the masks are zero twice as often as any other value. -/
theorem C81_not_perfect {E : Env (ZMod q) G} (hE : LengthOk E)
    (hB : Function.Bijective (fun s : ZMod q => s • E.base))
    {P : Params q} (hq : 2 ^ (P.smlnsBits + 1) ≤ q) (hB0 : 0 ≤ P.B_smallness)
    (hfit : P.B_smallness + P.B_smallness.fdiv 128 < 2 ^ P.smlnsBits) {ix : Indexes} {Gs : List G}
    (hG : ix.y + 128 ≤ Gs.length) (st : E.St) {w w' : EVec q 2} (hw : w.length = 1300) (hw' : w'.length = 1300) (C : G)
    (hp : CoeffsWithin (P.B_smallness.fdiv 128) (product E st w C))
    (hp' : CoeffsWithin (P.B_smallness.fdiv 128) (product E st w' C)) :
    (∀ z, replyCount E P ix Gs st w C z = replyCount E P ix Gs st w' C z) ↔
      product E st w C = product E st w' C := by
  have hc : P.B_smallness.fdiv 128 ≤ P.B_smallness := by
    rw [Int.fdiv_eq_ediv_of_nonneg _ (by norm_num)]; omega
  constructor
  · intro h
    have hz : CoeffsWithin P.B_smallness (product E st w C) := fun i j => (hp i j).trans hc
    have h1 := (C81_reply hE hB hq hB0 hfit hG st hw C (product E st w C)).1 ⟨hp, hz⟩
    have h2 := (C81_reply hE hB hq hB0 hfit hG st hw' C (product E st w C)).1 ⟨hp', hz⟩
    rw [h, h2] at h1
    by_contra hne
    have : ∃ i j, product E st w C i j ≠ product E st w' C i j := by
      by_contra hno
      push Not at hno
      exact hne (funext fun i => funext fun j => hno i j)
    obtain ⟨i, j, hij⟩ := this
    refine absurd h1 (ne_of_lt ?_)
    have le2 : ∀ i j, (if product E st w C i j = product E st w' C i j then 2 else 1) ≤
        (if product E st w C i j = product E st w C i j then 2 else 1) := by
      intro i j; rw [if_pos rfl]; split_ifs <;> norm_num
    refine Finset.prod_lt_prod (fun i _ => Finset.prod_pos fun j _ => by split_ifs <;> norm_num)
      (fun i _ => Finset.prod_le_prod' fun j _ => le2 i j) ⟨i, Finset.mem_univ _, ?_⟩
    refine Finset.prod_lt_prod (fun j _ => by split_ifs <;> norm_num) (fun j _ => le2 i j) ⟨j, Finset.mem_univ _, ?_⟩
    rw [if_neg hij, if_pos rfl]
    norm_num
  · intro h z
    obtain ⟨r1, r2⟩ := C81_reply hE hB hq hB0 hfit hG st hw C z
    obtain ⟨s1, s2⟩ := C81_reply hE hB hq hB0 hfit hG st hw' C z
    by_cases hz : CoeffsWithin P.B_smallness z
    · rw [r1 ⟨hp, hz⟩, s1 ⟨hp', hz⟩, h]
    · rw [r2 fun k => hz k.2, s2 fun k => hz k.2]

/-- A vector whose coefficients sum up to at most `B/128` in absolute value passes the size check whatever the
commitment and the challenge. -/
theorem within_of_l1 (E : Env (ZMod q) G) (st : E.St) {w : EVec q 2} (hw : w.length = 1300) (B : ℤ) (h : l1 w ≤ B)
    (C : G) : CoeffsWithin B (product E st w C) := by
  intro i j
  unfold product
  generalize hu : compressLeft 1300 64 w _ = u
  have hb : Below u (l1 w) := by
    rw [← hu]; exact below_left hw (isTernary_ternaryOf _ _ _) 64
  have hl : u.length = 64 := by rw [← hu]; simp [compressLeft]
  rw [List.getD_eq_getElem _ _ (by omega)]
  exact (hb _ (List.getElem_mem _) j).trans h

end

/-- C81.  The library's parameters meet the conditions on the masks: for every number of parties
from 5 to `2^30`, in the real-number model of the bounds.  (The double `128.0/129` of the code is below
128/129, so its bound is not larger than the one here.) -/
theorem C81_setting (delta : ℕ) (gk : GlobalKey Regev.P 2) (H : List (List (ZMod Regev.P))) {n : ℕ}
    (hg : Standard gk n) (h5 : 5 ≤ n) (hn : n < 2 ^ 30) {P : Params Regev.P} (h : verifierBounds delta gk H = .ok P) :
    2 ^ (P.smlnsBits + 1) ≤ Regev.P ∧ 59000 ≤ P.B_smallness ∧
      P.B_smallness + P.B_smallness.fdiv 128 < 2 ^ P.smlnsBits := by
  obtain ⟨P', b, m, h1, rfl, h3, h4, h5'⟩ := C67_model delta gk H hg h5 hn
  rw [h] at h1
  obtain rfl := Res.ok.inj h1
  obtain ⟨a1, a2, a3, a4, a5, a6, a7, a8, a9, a10, a11, -⟩ := standard_facts hg h5 hn h5'
  obtain ⟨c1, c2, c3⟩ := smallness_lo hg h5 hn h5'
  have hsm : 59000 ≤ P.B_smallness := by nlinarith
  obtain ⟨Q, hs, hQ⟩ := hg.sizes h5 hn
  have f := bounds_facts h5' hs hQ
  have s_lo := (h5'.smallness f.m0).lo
  have hup : 129 * P.B_smallness ≤ 128 * 2 ^ P.smlnsBits := by
    unfold verifierBounds at h
    simp only at h
    split_ifs at h with hif
    have e := Res.ok.inj h
    have e1 := congrArg Params.B_smallness e
    have e2 := congrArg Params.smlnsBits e
    simp only at e1 e2
    rw [← e1, ← e2]
    generalize ⌈Real.logb 2 (9.75 * 129 * √2600) + _ - _⌉ = k
    have hk : oneShl k ≤ 2 ^ k.toNat := by
      unfold oneShl
      split_ifs
      · positivity
      · exact le_rfl
    have h1 : (multDbl (128 / 129) (oneShl k) : ℝ) ≤ 128 / 129 * oneShl k := Int.floor_le _
    have h2 : (oneShl k : ℝ) ≤ 2 ^ k.toNat := by exact_mod_cast hk
    have : (129 * multDbl (128 / 129) (oneShl k) : ℝ) ≤ 128 * 2 ^ k.toNat := by linarith
    exact_mod_cast this
  refine ⟨?_, hsm, ?_⟩
  · have : (2 : ℤ) ^ P.smlnsBits ≤ 2 * P.B_smallness := by
      have h0 : (59000 : ℝ) ≤ P.B_smallness := by exact_mod_cast hsm
      have : (2 : ℝ) ^ P.smlnsBits ≤ 2 * P.B_smallness := by
        rw [h5'.maskBits]
        generalize (2 : ℝ) ^ m.toNat = M at *
        linarith
      exact_mod_cast this
    have : (2 : ℤ) ^ (P.smlnsBits + 1) ≤ (Regev.P : ℕ) := by
      rw [pow_succ]
      generalize (2 : ℤ) ^ P.smlnsBits = M at *
      nlinarith
    exact_mod_cast this
  · rw [Int.fdiv_eq_ediv_of_nonneg _ (by norm_num)]
    obtain ⟨M, hM⟩ : ∃ M : ℤ, M = 2 ^ P.smlnsBits := ⟨_, rfl⟩
    rw [← hM] at hup ⊢
    rcases lt_or_eq_of_le (by omega : P.B_smallness + P.B_smallness / 128 ≤ M) with h | h
    · exact h
    · have : M = 129 * (P.B_smallness / 128) := by omega
      have d : (3 : ℤ) ∣ 2 ^ P.smlnsBits := ⟨43 * (P.B_smallness / 128), by rw [← hM]; omega⟩
      have := Int.Prime.dvd_pow' (by norm_num : Nat.Prime 3) d
      norm_num at this

/-! ### The hypotheses, for two vectors -/

/-- Masks of 12 bits. -/
noncomputable def maskP : Params 10007 := { demoP with B_smallness := 3000, smlnsBits := 12 }

/-- A vector with two nonzero coefficients. -/
def maskW : EVec 10007 2 := ⟨![1, 0]⟩ :: ⟨![0, -2]⟩ :: List.replicate 1298 0

theorem maskE_base : Function.Bijective (fun s : ZMod 10007 => s • demoE.base) := by
  have : (fun s : ZMod 10007 => s • demoE.base) = id := by
    funext s
    exact mul_one s
  rw [this]
  exact Function.bijective_id

example (C : ZMod 10007) : LengthOk demoE ∧ Function.Bijective (fun s : ZMod 10007 => s • demoE.base) ∧
    2 ^ (maskP.smlnsBits + 1) ≤ 10007 ∧ 0 ≤ maskP.B_smallness ∧
    maskP.B_smallness + maskP.B_smallness.fdiv 128 < 2 ^ maskP.smlnsBits ∧ demoIx.y + 128 ≤ demoV.Gs.length ∧
    maskW.length = 1300 ∧ CoeffsWithin (maskP.B_smallness.fdiv 128) (product demoE demoV.mer maskW C) ∧
    CoeffsWithin (maskP.B_smallness.fdiv 128) (product demoE demoV.mer (List.replicate 1300 0) C) :=
  ⟨demoE_length, maskE_base, by decide, by decide, by decide, by decide +kernel, by decide +kernel,
    within_of_l1 _ _ (by decide +kernel) _ (by decide +kernel) _,
    within_of_l1 _ _ (by decide +kernel) _ (by decide +kernel) _⟩

end Verif.Props
