/-
C24: the number of rows of the parity check matrix, and a kernel routine with the whole documented contract.
-/
import Verif.Props.Shamir
import Mathlib.LinearAlgebra.Matrix.Rank

namespace Verif.Props
open Spec Polynomial
open scoped BigOperators

section
variable {F : Type} [Field F]

theorem genRow_length (k : Nat) (ep c : F) : (genRow ep k c).length = k := by
  induction k generalizing c with
  | zero => rfl
  | succ k ih => simp [genRow, ih]

/-- The kernel of a rectangular Vandermonde matrix with at least as many distinct points as powers. -/
theorem vandermonde_kernel {N t : ℕ} (pt : Fin N → F) (hinj : Function.Injective pt) (htN : t ≤ N) :
    Module.finrank F (LinearMap.ker (Matrix.of fun (i : Fin N) (j : Fin t) => pt i ^ j.1).transpose.mulVecLin) = N - t := by
  obtain ⟨M, hM⟩ : ∃ M : Matrix (Fin N) (Fin t) F, M = Matrix.of fun (i : Fin N) (j : Fin t) => pt i ^ j.1 := ⟨_, rfl⟩
  rw [← hM]
  have hrank : M.rank = t := by
    have hi : Function.Injective M.mulVecLin := by
      rw [← LinearMap.ker_eq_bot, LinearMap.ker_eq_bot']
      intro c hc
      obtain ⟨p, hp⟩ : ∃ p : F[X], p = ∑ j : Fin t, C (c j) * X ^ j.1 := ⟨_, rfl⟩
      have hroot : ∀ i, p.eval (pt i) = 0 := by
        intro i
        have := congrFun hc i
        rw [Matrix.mulVecLin_apply, Matrix.mulVec, dotProduct] at this
        rw [hp, eval_finset_sum]
        simp only [eval_mul, eval_C, eval_pow, eval_X]
        rw [hM] at this
        simp only [Matrix.of_apply, Pi.zero_apply] at this
        rw [← this]
        exact Finset.sum_congr rfl fun j _ => mul_comm _ _
      have hdeg : p.degree < N := by
        rw [hp]
        by_cases ht : t = 0
        · subst ht
          simp
        apply lt_of_le_of_lt (degree_sum_le _ _)
        rw [Finset.sup_lt_iff (by exact_mod_cast WithBot.bot_lt_coe N)]
        intro j _
        refine lt_of_le_of_lt (degree_C_mul_X_pow_le _ _) ?_
        exact_mod_cast lt_of_lt_of_le j.2 htN
      have h0 : p = 0 := by
        apply Polynomial.eq_zero_of_degree_lt_of_eval_finset_eq_zero (Finset.univ.map ⟨pt, hinj⟩)
        · simpa using hdeg
        · intro x hx
          obtain ⟨i, -, rfl⟩ := Finset.mem_map.1 hx
          exact hroot i
      funext j
      have hc : p.coeff j = c j := by
        rw [hp, finset_sum_coeff]
        simp only [coeff_C_mul, coeff_X_pow, mul_ite, mul_one, mul_zero]
        rw [Finset.sum_eq_single j]
        · rw [if_pos rfl]
        · intro b _ hb
          rw [if_neg (fun h => hb (Fin.ext h.symm))]
        · simp
      rw [← hc, h0, coeff_zero]
      rfl
    unfold Matrix.rank
    rw [LinearMap.finrank_range_of_inj hi]
    simp
  have h1 := LinearMap.finrank_range_add_finrank_ker M.transpose.mulVecLin
  have h2 : Module.finrank F (LinearMap.range M.transpose.mulVecLin) = t := by
    exact (Matrix.rank_transpose M).trans hrank
  rw [h2] at h1
  simp at h1
  omega

/-- **C24.** If the kernel routine returns a basis, as documented, the parity check matrix has exactly
`n + 1 - t` rows for `n` good evaluation points and threshold `t ≤ n + 1`. -/
theorem C24_rows (ntlKernel : List (List F) → List (List F))
    (hker : ∀ G nr nc, G.length = nr → (∀ r ∈ G, r.length = nc) → LeftKernelBasis (ntlKernel G) G nr nc)
    (pts : List Int) (hg : GoodPoints F pts) (t : Nat) (ht : 1 ≤ t) (htn : t ≤ pts.length + 1)
    (sp : SharingParams F) (hsp : SharingParams.make ntlKernel pts t = .ok sp) :
    sp.H.length = pts.length + 1 - t := by
  obtain ⟨G, hG⟩ : ∃ G, G = (1 :: List.replicate (t - 1) (0 : F)) ::
    pts.map fun (ep : Int) => genRow (ep : F) t 1 := ⟨_, rfl⟩
  unfold SharingParams.make genMatrix at hsp
  rw [if_neg (by omega), ← hG] at hsp
  obtain rfl := Res.ok.inj hsp
  simp only
  obtain ⟨⟨hlen, hspan⟩, hind⟩ := hker G (pts.length + 1) t (by simp [hG]) (by
    intro r hr
    rw [hG] at hr
    rcases List.mem_cons.1 hr with rfl | hr
    · simp; omega
    · obtain ⟨ep, -, rfl⟩ := List.mem_map.1 hr
      exact genRow_length _ _ _)
  obtain ⟨pt, hpt⟩ : ∃ pt : Fin (pts.length + 1) → F,
    ∀ i : Fin (pts.length + 1), pt i = ((0 : F) :: pts.map fun (x : Int) => (x : F))[i.1]'(by simp only [List.length_cons, List.length_map]; exact i.2) :=
    ⟨_, fun _ => rfl⟩
  have hentry : ∀ (i : Fin (pts.length + 1)) (j : Fin t), (G.getD i []).getD j 0 = pt i ^ j.1 := by
    intro i j
    rw [hG, genMatrix_entry pts t i j i.2 j.2, hpt]
  have hinj : Function.Injective pt := by
    intro a b hab
    rw [hpt, hpt] at hab
    have hnd : ((0 : F) :: pts.map fun (x : Int) => (x : F)).Nodup := by
      rw [List.nodup_cons]
      refine ⟨?_, ?_⟩
      · intro h
        obtain ⟨x, hx, h0⟩ := List.mem_map.1 h
        exact hg.ne_zero x hx h0
      · rw [List.nodup_map_iff_inj_on hg.nodup]
        intro x hx y hy hxy
        by_contra hne
        exact hg.inj x hx y hy hne hxy
    exact Fin.ext ((List.Nodup.getElem_inj_iff hnd).1 hab)
  obtain ⟨v, hv⟩ : ∃ v : Fin (ntlKernel G).length → Fin (pts.length + 1) → F,
    v = fun (k : Fin (ntlKernel G).length) (i : Fin (pts.length + 1)) => ((ntlKernel G)[k.1]).getD i 0 := ⟨_, rfl⟩
  rw [← hv] at hind
  have hset : {y : Fin (pts.length + 1) → F | ∃ row ∈ ntlKernel G, ∀ i : Fin (pts.length + 1), row[i.1]? = some (y i)} =
      Set.range v := by
    ext y
    constructor
    · rintro ⟨row, hrow, hy⟩
      obtain ⟨k, hk, rfl⟩ := List.getElem_of_mem hrow
      refine ⟨⟨k, hk⟩, ?_⟩
      funext i
      rw [hv]
      simp only
      rw [List.getD_eq_getElem?_getD, hy i]
      rfl
    · rintro ⟨k, rfl⟩
      refine ⟨(ntlKernel G)[k.1], List.getElem_mem _, fun i => ?_⟩
      have hl := hlen _ (List.getElem_mem k.2)
      rw [hv]
      simp only
      rw [List.getD_eq_getElem?_getD, List.getElem?_eq_getElem (by omega)]
      rfl
  have hker' : LinearMap.ker (Matrix.of fun (i : Fin (pts.length + 1)) (j : Fin t) => pt i ^ j.1).transpose.mulVecLin =
      Submodule.span F (Set.range v) := by
    ext x
    rw [← hset, ← hspan x, LinearMap.mem_ker, funext_iff]
    refine forall_congr' fun j => ?_
    rw [Matrix.mulVecLin_apply, Matrix.mulVec, dotProduct]
    simp only [Matrix.transpose_apply, Matrix.of_apply, Pi.zero_apply, hentry]
    rw [Finset.sum_congr rfl fun i _ => mul_comm (pt i ^ j.1) (x i)]
  have h := vandermonde_kernel pt hinj htn
  rw [hker', finrank_span_eq_card hind, Fintype.card_fin] at h
  exact h

/-- A kernel routine with the whole documented contract exists. -/
theorem kernel_exists (F : Type) [Field F] : ∃ k : List (List F) → List (List F), ∀ G nr nc, G.length = nr →
    (∀ r ∈ G, r.length = nc) → LeftKernelBasis (k G) G nr nc := by
  classical
  have key : ∀ (G : List (List F)), ∃ H, ∀ nr nc, G.length = nr → (∀ r ∈ G, r.length = nc) →
      LeftKernelBasis H G nr nc := by
    intro G
    by_cases hG : ∃ nc, ∀ r ∈ G, r.length = nc
    · let K : Submodule F (Fin G.length → F) :=
        { carrier := {x | ∀ j : Nat, (∑ i : Fin G.length, x i * ((G.getD i []).getD j 0)) = 0}
          add_mem' := by
            intro a b ha hb j
            simp only [Pi.add_apply, add_mul, Finset.sum_add_distrib]
            rw [ha j, hb j, add_zero]
          zero_mem' := by intro j; simp
          smul_mem' := by
            intro c a ha j
            simp only [Pi.smul_apply, smul_eq_mul, mul_assoc, ← Finset.mul_sum]
            rw [ha j, mul_zero] }
      obtain ⟨b⟩ : Nonempty (Module.Basis (Fin (Module.finrank F K)) F K) := ⟨Module.finBasis F K⟩
      obtain ⟨v, hv⟩ : ∃ v : Fin (Module.finrank F K) → Fin G.length → F, v = fun k => (b k : Fin G.length → F) := ⟨_, rfl⟩
      refine ⟨(List.ofFn v).map fun y => List.ofFn y, ?_⟩
      rintro nr nc rfl hnc
      have hset : {y : Fin G.length → F | ∃ row ∈ (List.ofFn v).map (fun y => List.ofFn y),
          ∀ i : Fin G.length, row[i.1]? = some (y i)} = Set.range v := by
        ext y
        constructor
        · rintro ⟨row, hrow, hy⟩
          obtain ⟨z, hz, rfl⟩ := List.mem_map.1 hrow
          have : y = z := by
            funext i
            have := hy i
            simpa using this.symm
          subst this
          rw [List.mem_ofFn] at hz
          exact hz
        · rintro ⟨k, rfl⟩
          exact ⟨List.ofFn (v k), List.mem_map.2 ⟨v k, List.mem_ofFn.2 ⟨k, rfl⟩, rfl⟩, fun i => by simp⟩
      have hsp : Submodule.span F (Set.range v) = K := by
        have e : Set.range v = K.subtype '' Set.range b := by
          rw [← Set.range_comp, hv]
          rfl
        rw [e, Submodule.span_image, b.span_eq, Submodule.map_top, Submodule.range_subtype]
      refine ⟨⟨by intro row hrow; obtain ⟨y, -, rfl⟩ := List.mem_map.1 hrow; simp, ?_⟩, ?_⟩
      · intro x
        rw [hset, hsp]
        constructor
        · intro h j
          by_cases hj : j < nc
          · exact h ⟨j, hj⟩
          · apply Finset.sum_eq_zero
            intro i _
            have hr : (G.getD i []).length = nc := by
              rw [List.getD_eq_getElem?_getD, List.getElem?_eq_getElem i.2]
              exact hnc _ (List.getElem_mem i.2)
            rw [List.getD_eq_getElem?_getD (l := G.getD i []), List.getElem?_eq_none (by omega)]
            simp
        · intro h j; exact h j
      · have hl : ((List.ofFn v).map fun y => List.ofFn y).length = Module.finrank F K := by simp
        have hi : LinearIndependent F v := by
          rw [hv]
          exact b.linearIndependent.map' K.subtype (Submodule.ker_subtype K)
        have := hi.comp (Fin.cast hl) (Fin.cast_injective hl)
        convert this using 1
        funext k i
        simp [List.getD_eq_getElem?_getD]
        rfl
    · exact ⟨[], fun nr nc _ h => absurd ⟨nc, h⟩ hG⟩
  choose k hk using key
  exact ⟨k, hk⟩

/-- Five points and threshold 2, as in the tests of the repository: four rows. -/
example : ∃ (k : List (List (ZMod 17)) → List (List (ZMod 17))) (sp : SharingParams (ZMod 17)),
    SharingParams.make k [1, 2, 3, 4, 5] 2 = .ok sp ∧ sp.H.length = 4 := by
  obtain ⟨k, hk⟩ := kernel_exists (ZMod 17)
  exact ⟨k, _, rfl, C24_rows k hk [1, 2, 3, 4, 5] good_example 2 (by norm_num) (by norm_num) _ rfl⟩

end
end Verif.Props
