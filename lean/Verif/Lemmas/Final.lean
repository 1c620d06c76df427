/-
The final proofs: when the aggregated statements are satisfied by witnesses to which the
commitments open, the proofs made by the prover are accepted.
-/
import Verif.Lemmas.Aggregate4
import Verif.Model.Protocol
import Verif.Props.Flatten
import Verif.Spec.FinalChallenges

namespace Verif
open Verif.Spec

section
variable {F G : Type} [Field F] [DecidableEq F] [AddCommGroup G] [Module F G] [DecidableEq G]

omit [DecidableEq F] [DecidableEq G] in
theorem dot_terms (ts : PtxtVec F) (x : ℕ → F) :
    dot ((keys ts).map x) (ts.map Prod.snd) = (ts.map fun p => p.2 * x p.1).sum := by
  unfold dot keys
  rw [List.map_map, List.zipWith_map]
  congr 1
  induction ts with
  | nil => rfl
  | cons p ts ih =>
    rw [List.zipWith_cons_cons, List.map_cons, ih]
    simp only [Function.comp, mul_comm]

omit [DecidableEq F] [DecidableEq G] in
theorem mapFind_tab {I : List ℕ} (hI : SortedSet I) (x : ℕ → F) {i : ℕ} (hi : i ∈ I) :
    mapFind (tab I x) i = some (x i) :=
  mapFind_of_mem (sorted_tab hI x) (List.mem_map.2 ⟨i, hi, rfl⟩)

omit [DecidableEq G] in
/-- What `finalProve` does. -/
theorem finalProve_run (E : Env F G) (coinsL coinsQ : ℕ → F × F) (v : ReadyToProve F G)
    (vd : VerifierData F G E.St) (pd : ProverData F) (N : ℕ) (hN : 0 < N) (hw : N < vd.ix.w)
    (hG : vd.Gs.length = vd.ix.w + 1) (hH : N ≤ vd.Hs.length)
    (xl dG dH xg xh : ℕ → F) (hkeys : ∀ k ∈ keys v.linCnstr.terms, k ≤ vd.ix.w)
    (hidx : v.quadCnstr.indexes = List.range N ++ [vd.ix.w])
    (hlw : pd.linWitness = tab (keys v.linCnstr.terms) xl)
    (hdG : v.deltaG = tab (List.range N ++ [vd.ix.w]) dG)
    (hdH : v.deltaH = tab (List.range N ++ [vd.ix.w]) dH)
    (hqG : pd.quadWitnessG = tab (List.range N ++ [vd.ix.w]) xg)
    (hqH : pd.quadWitnessH = tab (List.range N ++ [vd.ix.w]) xh) (Ig Ih : List G)
    (hIg : Ig = (List.range N).map (fun i => vd.Gs.getD i 0) ++ [vd.Gs.getD vd.ix.w 0])
    (hIh : Ih = (List.range N).map (fun i => vd.Hs.getD i 0) ++ [vd.Hs.getD ((List.range N).length - 1) 0]) :
    finalProve E coinsL coinsQ v vd pd = (do
      let r ← proveLinear E coinsL ⟨str "Linear", v.linCom, [], [], 0, 0, 0⟩ v.lComRnd
        (E.processLin vd.mer (str "linear") v.linCnstr) ((keys v.linCnstr.terms).map xl)
        (v.linCnstr.terms.map Prod.snd) ((keys v.linCnstr.terms).map fun i => vd.Gs.getD i 0)
        v.linCnstr.terms.length
      let q ← proveQuadratic E coinsQ ⟨str "Quadratic", v.quadCom, [], [], 0, 0, 0, 0, 0⟩ v.qComRnd
        (E.processQuad vd.mer (str "quadratic") v.quadCnstr) Ig ((List.range N ++ [vd.ix.w]).map xg) Ih
        ((List.range N ++ [vd.ix.w]).map xh) (N + 1)
      .ok ({ v.toReadyToVerify with
          linGs := (keys v.linCnstr.terms).map fun i => vd.Gs.getD i 0,
          linStmnt := v.linCnstr.terms.map Prod.snd, linCnstr := ⟨[], v.linCnstr.equalsTo⟩,
          quadGs := Ig, quadHs := Ih, offstG := (List.range N ++ [vd.ix.w]).map dG,
          offstH := (List.range N ++ [vd.ix.w]).map dH },
        E.processLin vd.mer (str "linear") v.linCnstr,
        E.processQuad vd.mer (str "quadratic") v.quadCnstr, r.1, q.1)) := by
  have hne : List.range N ≠ [] := by
    intro h
    have := congrArg List.length h
    simp only [List.length_range, List.length_nil] at this
    omega
  have hss : SortedSet (List.range N ++ [vd.ix.w]) := by
    unfold SortedSet
    rw [List.pairwise_append]
    refine ⟨List.pairwise_lt_range, by simp, ?_⟩
    intro a ha b hb
    rw [List.mem_singleton.1 hb]
    have := List.mem_range.1 ha
    omega
  -- the flattened statements
  have f1 : flattenLinPrv v vd pd = .ok ({ v with
      linGs := (keys v.linCnstr.terms).map fun i => vd.Gs.getD i 0,
      linStmnt := v.linCnstr.terms.map Prod.snd, linCnstr := ⟨[], v.linCnstr.equalsTo⟩,
      linWtns := (keys v.linCnstr.terms).map xl }, { pd with linWitness := [] }) := by
    unfold flattenLinPrv flattenLinVer
    rw [if_neg (by rw [hlw]; simp [tab, keys]),
      flattenLinLoop_ok _ _ (fun k hk => by rw [hG]; have := hkeys k hk; omega), hlw]
    simp only [Res.ok_bind]
    have : (tab (keys v.linCnstr.terms) xl).map Prod.snd = (keys v.linCnstr.terms).map xl := by
      simp [tab]
    rw [this]
  have f2 := flattenQuadLoop_ok vd.Gs vd.Hs vd.ix.w v.deltaG v.deltaH (List.range N) hne
    (fun i h => by have := List.mem_range.1 h; constructor <;> omega)
    (fun i h => by have := List.mem_range.1 h; omega) (by omega) (by simpa using hH)
  have o1 : (List.range N ++ [vd.ix.w]).map (fun i => (mapFind v.deltaG i).getD 0)
      = (List.range N ++ [vd.ix.w]).map dG := by
    apply List.map_congr_left
    intro i hi
    rw [hdG, mapFind_tab hss _ hi]; rfl
  have o2 : (List.range N ++ [vd.ix.w]).map (fun i => (mapFind v.deltaH i).getD 0)
      = (List.range N ++ [vd.ix.w]).map dH := by
    apply List.map_congr_left
    intro i hi
    rw [hdH, mapFind_tab hss _ hi]; rfl
  rw [o1, o2] at f2
  rw [← hIg, ← hIh] at f2
  have lg : Ig.length = N + 1 := by rw [hIg]; simp
  have lk : (keys v.linCnstr.terms).length = v.linCnstr.terms.length := by simp [keys]
  unfold finalProve
  simp only [f1, Res.ok_bind]
  unfold flattenQuadPrv flattenQuadVer
  simp only
  rw [hidx, f2, hqG, hqH, flattenWitLoop_tab]
  simp only [Res.ok_bind, List.length_map, lg, lk]

/-- Completeness of the two final proofs. -/
theorem final_accepted (E : Env F G) (coinsL coinsQ : ℕ → F × F) (v : ReadyToProve F G)
    (vd : VerifierData F G E.St) (pd : ProverData F) (N : ℕ) (hN : 0 < N) (hw : N < vd.ix.w)
    (hw2 : vd.ix.w < 2 ^ 31) (hG : vd.Gs.length = vd.ix.w + 1) (hH : N ≤ vd.Hs.length)
    (xl dG dH xg xh : ℕ → F) (hts : v.linCnstr.terms ≠ []) (hsort : Sorted v.linCnstr.terms)
    (hkeys : ∀ k ∈ keys v.linCnstr.terms, k ≤ vd.ix.w)
    (hidx : v.quadCnstr.indexes = List.range N ++ [vd.ix.w])
    (hlw : pd.linWitness = tab (keys v.linCnstr.terms) xl)
    (hdG : v.deltaG = tab (List.range N ++ [vd.ix.w]) dG)
    (hdH : v.deltaH = tab (List.range N ++ [vd.ix.w]) dH)
    (hqG : pd.quadWitnessG = tab (List.range N ++ [vd.ix.w]) xg)
    (hqH : pd.quadWitnessH = tab (List.range N ++ [vd.ix.w]) xh)
    (hlin : LinSat v.linCnstr xl) (hquad : QuadSat v.quadCnstr xg xh)
    (hlc : v.linCom = v.lComRnd • E.base
      + ((keys v.linCnstr.terms).map fun i => xl i • vd.Gs.getD i 0).sum)
    (hqc : v.quadCom = v.qComRnd • E.base
      + ((List.range N).map fun i => (xg i + dG i) • vd.Gs.getD i 0 + (xh i + dH i) • vd.Hs.getD i 0).sum
      + (xg vd.ix.w + dG vd.ix.w) • vd.Gs.getD vd.ix.w 0
      + (xh vd.ix.w + dH vd.ix.w) • vd.Hs.getD (N - 1) 0) :
    (∀ rtv merL merQ pfL pfQ, finalProve E coinsL coinsQ v vd pd = .ok (rtv, merL, merQ, pfL, pfQ) →
      rtv.linCom = v.linCom ∧ rtv.quadCom = v.quadCom ∧ pfL.C = v.linCom ∧ pfQ.C = v.quadCom ∧
      (finalVerifyLin E rtv merL pfL = .ok true ∨
        (finalVerifyLin E rtv merL pfL = .throw ∧ (deriveLin E pfL rtv.linGs.length merL).x = 0)) ∧
      finalVerifyQuad E rtv merQ pfQ = .ok true) ∧
    ((0 ∈ finalChallenges E coinsL coinsQ v vd pd ∧
      finalProve E coinsL coinsQ v vd pd = .throw) ∨
     (0 ∉ finalChallenges E coinsL coinsQ v vd pd ∧
      ∃ out, finalProve E coinsL coinsQ v vd pd = .ok out)) := by
  obtain ⟨w, hwd⟩ : ∃ w, w = vd.ix.w := ⟨_, rfl⟩
  obtain ⟨Ig, hIg⟩ : ∃ l, l = (List.range N).map (fun i => vd.Gs.getD i 0) ++ [vd.Gs.getD vd.ix.w 0] :=
    ⟨_, rfl⟩
  obtain ⟨Ih, hIh⟩ : ∃ l, l = (List.range N).map (fun i => vd.Hs.getD i 0)
      ++ [vd.Hs.getD ((List.range N).length - 1) 0] := ⟨_, rfl⟩
  have lg : Ig.length = N + 1 := by rw [hIg]; simp
  have lh : Ih.length = N + 1 := by rw [hIh]; simp
  have lt : 1 ≤ v.linCnstr.terms.length := List.length_pos_iff.2 hts
  have lk : (keys v.linCnstr.terms).length = v.linCnstr.terms.length := by simp [keys]
  have lk2 : v.linCnstr.terms.length ≤ 2 ^ 63 := by
    have h1 : (keys v.linCnstr.terms).length ≤ (List.range (vd.ix.w + 1)).length := by
      apply List.Subperm.length_le
      apply List.subperm_of_subset (nodup_keys hsort)
      intro k hk
      exact List.mem_range.2 (by have := hkeys k hk; omega)
    rw [lk, List.length_range] at h1
    have : vd.ix.w + 1 ≤ 2 ^ 63 := by
      have : (2 : ℕ) ^ 31 ≤ 2 ^ 63 := Nat.pow_le_pow_right (by omega) (by omega)
      omega
    omega
  have n63 : N + 1 ≤ 2 ^ 63 := by
    have : (2 : ℕ) ^ 31 ≤ 2 ^ 63 := Nat.pow_le_pow_right (by omega) (by omega)
    omega
  have run := finalProve_run E coinsL coinsQ v vd pd N hN hw hG hH xl dG dH xg xh hkeys hidx hlw hdG hdH hqG hqH
    Ig Ih hIg hIh
  constructor
  · intro rtv merL merQ pfL pfQ hp
    rw [run] at hp
    obtain ⟨⟨pL, sL⟩, p1, hp⟩ := Res.bind_eq_ok.1 hp
    obtain ⟨⟨pQ, sQ⟩, p2, hp⟩ := Res.bind_eq_ok.1 hp
    have := Res.ok.inj hp
    simp only [Prod.mk.injEq] at this
    obtain ⟨rfl, rfl, rfl, rfl, rfl⟩ := this
    have cL := ((Props.C10_honest_length E coinsL v.lComRnd (E.processLin vd.mer (str "linear") v.linCnstr)
      sL ((keys v.linCnstr.terms).map xl) (v.linCnstr.terms.map Prod.snd)
      ((keys v.linCnstr.terms).map fun i => vd.Gs.getD i 0)
      ((keys v.linCnstr.terms).map fun i => vd.Gs.getD i 0) _ lt lk2 (by simp [lk]) (by simp) (by simp [lk])
      (by simp [lk])).1 _ _ rfl rfl p1).2.2.1
    have cQ := ((Props.C10_honest_length E coinsQ v.qComRnd
      (E.processQuad vd.mer (str "quadratic") v.quadCnstr) sQ ((List.range N ++ [vd.ix.w]).map xg)
      ((List.range N ++ [vd.ix.w]).map xh) Ig Ih (N + 1) (by omega) n63 (by simp) (by simp) lg lh).2
      _ _ rfl rfl p2).2.2.1
    refine ⟨rfl, rfl, cL, cQ, ?_, ?_⟩
    · have key := Props.C07_linear_complete_offsets E coinsL _ pL v.lComRnd _ sL
        ((keys v.linCnstr.terms).map xl) (v.linCnstr.terms.map Prod.snd)
        ((keys v.linCnstr.terms).map fun i => vd.Gs.getD i 0) _ none lt lk2 (by simp [lk]) (by simp)
        (by simp [lk]) (by simp) rfl rfl (by
          simp only [Option.getD_none, mexp_nil_left, add_zero]
          rw [mexp_map, hlc]) p1
      rw [dot_terms, show (v.linCnstr.terms.map fun p => p.2 * xl p.1).sum = v.linCnstr.equalsTo from hlin]
        at key
      unfold finalVerifyLin
      simp only [List.length_map, lk]
      rw [key]
      by_cases hx : (deriveLin E pL v.linCnstr.terms.length
          (E.processLin vd.mer (str "linear") v.linCnstr)).x = 0
      · right
        rw [if_pos hx]
        exact ⟨rfl, hx⟩
      · left
        rw [if_neg hx]
        rfl
    · have key := Props.C08_quadratic_complete E coinsQ _ pQ v.qComRnd _ sQ
        ((List.range N ++ [vd.ix.w]).map xg) ((List.range N ++ [vd.ix.w]).map xh) Ig Ih (N + 1)
        (some ((List.range N ++ [vd.ix.w]).map dG)) (some ((List.range N ++ [vd.ix.w]).map dH))
        (by omega) n63 (by simp) (by simp) lg lh (by intro o ho; rw [← Option.some.inj ho]; simp)
        (by intro o ho; rw [← Option.some.inj ho]; simp) rfl rfl (by
          simp only [Option.getD_some]
          have hg' : Ig = (List.range N ++ [vd.ix.w]).map fun i => vd.Gs.getD i 0 := by
            rw [hIg]; simp
          have hh' : ∀ z : ℕ → F, mexp ((List.range N ++ [vd.ix.w]).map z) Ih
              = ((List.range N).map fun i => z i • vd.Hs.getD i 0).sum
                + z vd.ix.w • vd.Hs.getD (N - 1) 0 := by
            intro z
            rw [hIh, List.map_append, mexp_append (by simp), mexp_map, List.length_range]
            simp [mexp]
          rw [hqc, hg', mexp_map, mexp_map, hh', hh']
          simp only [List.map_append, List.sum_append, List.map_cons, List.map_nil, List.sum_cons,
            List.sum_nil, add_smul, sum_map_add']
          module) p2
      rw [dot_map] at key
      have hq' : ((List.range N ++ [vd.ix.w]).map fun i => xg i * xh i).sum = v.quadCnstr.equalsTo := by
        have := hquad
        unfold QuadSat at this
        rwa [hidx] at this
      rw [hq'] at key
      unfold finalVerifyQuad
      simp only [lg]
      rw [key]
      rfl
  · have hid : ((List.range N ++ [vd.ix.w]).map fun i =>
        vd.Hs.getD (if i = vd.ix.w then (List.range N ++ [vd.ix.w]).length - 2 else i) 0) = Ih := by
      rw [hIh, List.map_append]
      congr 1
      · apply List.map_congr_left
        intro i hi
        have := List.mem_range.1 hi
        rw [if_neg (by omega)]
      · simp
    have hig : ((List.range N ++ [vd.ix.w]).map fun i => vd.Gs.getD i 0) = Ig := by rw [hIg]; simp
    have hkl : (v.linCnstr.terms.map fun t => vd.Gs.getD t.1 0)
        = (keys v.linCnstr.terms).map fun i => vd.Gs.getD i 0 := by simp [keys]
    have hwl : pd.linWitness.map Prod.snd = (keys v.linCnstr.terms).map xl := by rw [hlw]; simp [tab]
    have hwg : pd.quadWitnessG.map Prod.snd = (List.range N ++ [vd.ix.w]).map xg := by
      rw [hqG]; simp [tab]
    have hwh : pd.quadWitnessH.map Prod.snd = (List.range N ++ [vd.ix.w]).map xh := by
      rw [hqH]; simp [tab]
    have hln : (List.range N ++ [vd.ix.w]).length = N + 1 := by simp
    have p1 := Props.C06_linear_prover_total E coinsL
      ⟨str "Linear", v.linCom, [], [], 0, 0, 0⟩ v.lComRnd
      (E.processLin vd.mer (str "linear") v.linCnstr) ((keys v.linCnstr.terms).map xl)
      (v.linCnstr.terms.map Prod.snd) ((keys v.linCnstr.terms).map fun i => vd.Gs.getD i 0) _ lt lk2
      (by simp [lk]) (by simp) (by simp [lk]) rfl rfl
    have p2 := Props.C08_quadratic_prover_total E coinsQ
      ⟨str "Quadratic", v.quadCom, [], [], 0, 0, 0, 0, 0⟩ v.qComRnd
      (E.processQuad vd.mer (str "quadratic") v.quadCnstr) ((List.range N ++ [vd.ix.w]).map xg)
      ((List.range N ++ [vd.ix.w]).map xh) Ig Ih (N + 1) (by omega) n63 (by simp) (by simp) lg lh
      rfl rfl
    unfold finalChallenges
    rw [List.mem_append, hwl, hwg, hwh, hkl, hidx, hid, hig, hln, run]
    rcases p1 with ⟨z1, p1⟩ | ⟨z1, pL, sL, p1, -⟩
    · exact Or.inl ⟨Or.inl z1, by rw [p1]; rfl⟩
    · rw [p1]
      simp only [Res.ok_bind]
      rcases p2 with ⟨z2, p2⟩ | ⟨z2, pQ, sQ, p2, -⟩
      · exact Or.inl ⟨Or.inr z2, by rw [p2]; rfl⟩
      · exact Or.inr ⟨not_or.2 ⟨z1, z2⟩, _, by rw [p2]; rfl⟩

end
end Verif
