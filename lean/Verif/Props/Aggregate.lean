/-
C42: aggregation of the constraints and commitments (`aggregateProver`, regevProofs.cpp:769-1083) and
the final proofs made from them (main.cpp:176-252).
-/
import Verif.Lemmas.Final
import Verif.Spec.Demo
import Verif.Spec.Toy

namespace Verif.Props
open Verif Verif.Spec

section
variable {F G : Type} [Field F] [DecidableEq F] [AddCommGroup G] [Module F G]

/-- The facts about the layout that the proofs below use. -/
theorem layout_w {ix : Indexes} {kay enn tee : ℕ} (h : IsLayout ix kay 2 enn tee) :
    260 * 10 + 128 ≤ ix.w := by
  rcases h with rfl | rfl <;>
    simp only [Indexes.swapSk, setIndexesNat, JLDIM, PAD_SIZE, LINYDIM] <;> omega

omit [DecidableEq F] in
/-- Tables and coefficients. -/
theorem coef_tab_snoc (N w : ℕ) (h : N ≤ w) (f : ℕ → F) {i : ℕ} (hi : i ∈ List.range N ++ [w]) :
    coef (tab (List.range N ++ [w]) f) i = f i := by
  apply coef_tab _ _ _ hi
  unfold SortedSet
  rw [List.pairwise_append]
  refine ⟨List.pairwise_lt_range, by simp, ?_⟩
  intro a ha b hb
  rw [List.mem_singleton.1 hb]
  have := List.mem_range.1 ha
  omega

/-- **C42.** When `x` satisfies all constraints and the commitments open to it (`Prepared`), and the
challenges are good, `aggregateProver` succeeds and produces one linear and one quadratic statement
such that
* the public part is what a verifier computes from the public data and the new commitment;
* the linear witness has exactly the variables of the linear constraint and satisfies it;
* the two quadratic witnesses have exactly the variables of the quadratic constraint and satisfy it;
* the linear commitment opens to the linear witness with the aggregated randomness;
* the quadratic commitment opens to the quadratic witnesses shifted by the offsets. -/
theorem C42_aggregation (E : Env F G) (tie : List (CompIter F) → ℕ) (wRnd : F) (v : ReadyToProve F G)
    (vd : VerifierData F G E.St) (pd : ProverData F) (kay enn tee : ℕ) (x : ℕ → F)
    (hP : Prepared E.base kay enn tee vd pd x) (r1 r2 : F) (st1 st2 : E.St)
    (h1 : E.newChallenge vd.mer (str "aggregateLinear") = (r1, st1))
    (h2 : E.newChallenge st1 (str "aggregateNorms") = (r2, st2))
    (hC : GoodChallenges vd x r1 r2) :
    ∃ v' vd' pd', aggregateProver E tie wRnd v vd pd = .ok (v', vd', pd') ∧
      vd'.Gs = vd.Gs ∧ vd'.Hs = vd.Hs ∧ vd'.ix = vd.ix ∧
      Sorted v'.linCnstr.terms ∧ (∀ k ∈ keys v'.linCnstr.terms, k ≤ vd.ix.w) ∧
      v'.linCnstr.terms ≠ [] ∧
      keys pd'.linWitness = keys v'.linCnstr.terms ∧ LinSat v'.linCnstr (coef pd'.linWitness) ∧
      v'.quadCnstr.indexes = List.range (260 * 10) ++ [vd.ix.w] ∧
      keys pd'.quadWitnessG = v'.quadCnstr.indexes ∧ keys pd'.quadWitnessH = v'.quadCnstr.indexes ∧
      keys v'.deltaG = v'.quadCnstr.indexes ∧ keys v'.deltaH = v'.quadCnstr.indexes ∧
      QuadSat v'.quadCnstr (coef pd'.quadWitnessG) (coef pd'.quadWitnessH) ∧
      v'.linCom = v'.lComRnd • E.base
        + ((keys v'.linCnstr.terms).map fun i => coef pd'.linWitness i • vd.Gs.getD i 0).sum ∧
      v'.quadCom = v'.qComRnd • E.base
        + ((List.range (260 * 10)).map fun i =>
            (coef pd'.quadWitnessG i + coef v'.deltaG i) • vd.Gs.getD i 0
            + (coef pd'.quadWitnessH i + coef v'.deltaH i) • vd.Hs.getD i 0).sum
        + (coef pd'.quadWitnessG vd.ix.w + coef v'.deltaG vd.ix.w) • vd.Gs.getD vd.ix.w 0 ∧
      coef pd'.quadWitnessH vd.ix.w + coef v'.deltaH vd.ix.w = 0 := by
  obtain ⟨u, st3, h3⟩ : ∃ u st3, E.newChallenge st2 (str "enforceNorm") = (u, st3) := ⟨_, _, rfl⟩
  obtain ⟨rho, st4, h4⟩ : ∃ rho st4, E.newChallenge st3 (str "separareLinQuad") = (rho, st4) :=
    ⟨_, _, rfl⟩
  have hw := layout_w hP.layout
  obtain ⟨v', vd', pd', bs, a1, a2, a3, a4, a5, a6, a7, a8, a9, a10, a11, a12, a13, a14, a15, a16, a17,
    a18, a19⟩ := aggregateProver_spec E tie wRnd v vd pd r1 r2 u rho st1 st2 st3 st4 260 (by omega) h1 h2
      h3 h4 hC.r2 hP.linNonempty hP.linSorted hP.linKeys hC.last hP.normLength hP.normBlocks (by omega)
      hP.small hP.gs x hP.linWitness hP.quadWitness
  obtain ⟨N, hN⟩ : ∃ N, N = 260 * 10 := ⟨_, rfl⟩
  obtain ⟨w, hwd⟩ : ∃ w, w = vd.ix.w := ⟨_, rfl⟩
  have hq := hP.opens.quad hP.layout r2
  have hl := hP.opens.lin hP.layout
  have hsat := aggLin_sat vd.linConstr r1 hP.linSorted vd.ix.w hP.linKeys x hP.linSat
  rw [aggLin_split _ _ (260 * 10) _ (by omega)] at hsat
  have hprod := scaled_product vd.normConstr 260 (by omega) hP.normBlocks r2 x x
  rw [hP.normLength] at hprod
  have hnorm : ((vd.normConstr.zip (pows r2 10)).map fun p =>
      p.2 ^ 2 * (p.1.indexes.map fun i => x i * x i).sum)
      = (vd.normConstr.zip (pows r2 10)).map fun p => p.2 ^ 2 * p.1.equalsTo := by
    apply List.map_congr_left
    intro p hp
    rw [show (p.1.indexes.map fun i => x i * x i).sum = p.1.equalsTo from
      hP.normSat p.1 (List.of_mem_zip hp).1]
  rw [hnorm] at hprod
  simp only [← hN, ← hwd] at hw a7 a8 a9 a10 a11 a12 a13 a14 a15 a16 a17 hq hl hsat hprod ⊢
  have hlt : ∀ i ∈ List.range N, i ≠ w := by
    intro i hi
    have := List.mem_range.1 hi
    omega
  have hkb : keys (bs ++ [(w, (-1 : F))]) = keys bs ++ [w] := by simp [keys]
  have hbw : ∀ i ∈ keys bs, i ≠ w := fun i hi => by have := a7 i hi; omega
  have hsb : Sorted (bs ++ [(w, (-1 : F))]) := by
    have := mapPut_append bs w (-1 : F) (fun i hi => (a7 i hi).2)
    rw [← this]; exact mapPut_sorted _ a6 _ _
  have hsI : SortedSet (keys bs ++ [w]) := by rw [← hkb]; exact keys_sorted hsb
  have hmw : w ∈ List.range N ++ [w] := by simp
  have hmi : ∀ {i}, i ∈ List.range N → i ∈ List.range N ++ [w] := fun h => List.mem_append_left _ h
  refine ⟨v', vd', pd', a1, a2, a3, a4, ?_, ?_, ?_, ?_, ?_, ?_, ?_, ?_, ?_, ?_, ?_, ?_, ?_, ?_⟩
  · rw [a9]; exact hsb
  · rw [a9]
    intro k hk
    rw [hkb] at hk
    rcases List.mem_append.1 hk with hk | hk
    · exact (a7 k hk).2.le
    · exact (List.mem_singleton.1 hk).le
  · rw [a9]; simp
  · rw [a9, a10, keys_tab, hkb]
  · -- the linear constraint
    rw [a9, a10]
    unfold LinSat
    simp only [List.map_append, List.sum_append, List.map_cons, List.map_nil, List.sum_cons,
      List.sum_nil, add_zero]
    rw [coef_tab hsI _ _ (by simp), if_pos rfl]
    have e : (bs.map fun p => p.2 * coef (tab (keys bs ++ [w]) fun i => if i = w then
        wValue vd.linConstr r1 N w x else x i) p.1) = bs.map fun p => p.2 * x p.1 := by
      apply List.map_congr_left
      intro p hp
      have hpk : p.1 ∈ keys bs := List.mem_map.2 ⟨p, hp, rfl⟩
      rw [coef_tab hsI _ _ (List.mem_append_left _ hpk), if_neg (hbw _ hpk)]
    rw [e, sum_eq_coef bs x (List.range' N (w - N)) List.nodup_range' (fun i hi => by
      have := a7 i hi
      rw [List.mem_range'_1]; omega)]
    have e2 : ((List.range' N (w - N)).map fun i => coef bs i * x i).sum
        = wValue vd.linConstr r1 N w x := by
      unfold wValue
      congr 1
      apply List.map_congr_left
      intro i hi
      rw [List.mem_range'_1] at hi
      rw [a8 i hi.1]
    rw [e2]; ring
  · rw [a11]
  · rw [a11, a14, keys_tab]
  · rw [a11, a15, keys_tab]
  · rw [a11, a12, keys_tab]
  · rw [a11, a13, keys_tab]
  · -- the quadratic constraint
    rw [a11, a14, a15]
    unfold QuadSat
    simp only [List.map_append, List.sum_append, List.map_cons, List.map_nil, List.sum_cons,
      List.sum_nil, add_zero]
    rw [coef_tab_snoc N w (by omega) _ hmw, coef_tab_snoc N w (by omega) _ hmw, if_pos rfl, if_pos rfl]
    have e : ((List.range N).map fun i =>
        coef (tab (List.range N ++ [w]) fun i => if i = w then wValue vd.linConstr r1 N w x
          else x i * r2 ^ (i / 260) - (aggCoef vd.linConstr r1 i * (r2 ^ (i / 260))⁻¹ * -rho - u ^ i)) i
        * coef (tab (List.range N ++ [w]) fun i => if i = w then rho else x i * r2 ^ (i / 260) - u ^ i) i)
        = (List.range N).map fun i => (x i * r2 ^ (i / 260)
            - (aggCoef vd.linConstr r1 i * (r2 ^ (i / 260))⁻¹ * -rho - u ^ i))
          * (x i * r2 ^ (i / 260) - u ^ i) := by
      apply List.map_congr_left
      intro i hi
      rw [coef_tab_snoc N w (by omega) _ (hmi hi), coef_tab_snoc N w (by omega) _ (hmi hi),
        if_neg (hlt i hi), if_neg (hlt i hi)]
    rw [e, shifted_product (List.range N) (fun i => x i * r2 ^ (i / 260))
      (fun i => x i * r2 ^ (i / 260)) (fun i => aggCoef vd.linConstr r1 i * (r2 ^ (i / 260))⁻¹)
      (fun i => u ^ i) rho, hprod]
    have e3 : ((List.range N).map fun i =>
        aggCoef vd.linConstr r1 i * (r2 ^ (i / 260))⁻¹ * (x i * r2 ^ (i / 260))).sum
        = ((List.range N).map fun i => aggCoef vd.linConstr r1 i * x i).sum := by
      congr 1
      apply List.map_congr_left
      intro i hi
      have := pow_ne_zero (i / 260) hC.r2
      field_simp
    have e4 : ((List.range N).map fun i => u ^ i * (x i * r2 ^ (i / 260) - x i * r2 ^ (i / 260))).sum = 0 := by
      apply List.sum_eq_zero
      intro y hy
      obtain ⟨i, -, rfl⟩ := List.mem_map.1 hy
      ring
    rw [e3, e4, ← hsat]
    ring
  · -- the linear commitment
    rw [a16, a18, hl, a9, a10, hkb, List.map_append, List.sum_append]
    simp only [List.map_cons, List.map_nil, List.sum_cons, List.sum_nil, add_zero]
    rw [coef_tab hsI _ _ (by simp), if_pos rfl]
    have e : ((keys bs).map fun i => coef (tab (keys bs ++ [w]) fun i => if i = w then
        wValue vd.linConstr r1 N w x else x i) i • vd.Gs.getD i 0).sum
        = ((List.range' N (w - N)).map fun i => x i • vd.Gs.getD i 0).sum := by
      have e1 : ((keys bs).map fun i => coef (tab (keys bs ++ [w]) fun i => if i = w then
          wValue vd.linConstr r1 N w x else x i) i • vd.Gs.getD i 0)
          = (keys bs).map fun i => x i • vd.Gs.getD i 0 := by
        apply List.map_congr_left
        intro i hi
        rw [coef_tab hsI _ _ (List.mem_append_left _ hi), if_neg (hbw i hi)]
      rw [e1]
      apply sum_subset_zero (nodup_keys a6) List.nodup_range'
      · intro i hi
        have := a7 i hi
        rw [List.mem_range'_1]; omega
      · intro i hi hn
        rw [List.mem_range'_1] at hi
        rcases hC.visible i (by omega) (by omega) with h | h
        · rw [h, zero_smul]
        · exfalso
          rw [← a8 i hi.1] at h
          exact h (coef_eq_zero _ _ hn)
    rw [e]
    module
  · -- the quadratic commitment
    rw [a17, a19, hq, a12, a13, a14, a15]
    rw [coef_tab_snoc N w (by omega) _ hmw, coef_tab_snoc N w (by omega) _ hmw, if_pos rfl, if_pos rfl]
    have e : ((List.range N).map fun i =>
        (coef (tab (List.range N ++ [w]) fun i => if i = w then wValue vd.linConstr r1 N w x
          else x i * r2 ^ (i / 260) - (aggCoef vd.linConstr r1 i * (r2 ^ (i / 260))⁻¹ * -rho - u ^ i)) i
        + coef (tab (List.range N ++ [w]) fun i => if i = w then 0 else
            aggCoef vd.linConstr r1 i * (r2 ^ (i / 260))⁻¹ * -rho - u ^ i) i) • vd.Gs.getD i 0
        + (coef (tab (List.range N ++ [w]) fun i => if i = w then rho else x i * r2 ^ (i / 260) - u ^ i) i
          + coef (tab (List.range N ++ [w]) fun i => if i = w then -rho else u ^ i) i) • vd.Hs.getD i 0)
        = (List.range N).map fun i => (x i * r2 ^ (i / 260)) • vd.Gs.getD i 0
            + (x i * r2 ^ (i / 260)) • vd.Hs.getD i 0 := by
      apply List.map_congr_left
      intro i hi
      rw [coef_tab_snoc N w (by omega) _ (hmi hi), coef_tab_snoc N w (by omega) _ (hmi hi),
        coef_tab_snoc N w (by omega) _ (hmi hi), coef_tab_snoc N w (by omega) _ (hmi hi),
        if_neg (hlt i hi), if_neg (hlt i hi), if_neg (hlt i hi), if_neg (hlt i hi)]
      rw [sub_add_cancel, sub_add_cancel]
    rw [e]
    module
  · rw [a13, a15, coef_tab_snoc N w (by omega) _ hmw, coef_tab_snoc N w (by omega) _ hmw, if_pos rfl,
      if_pos rfl]
    ring

/-- `aggregateVerifier2` reads only the index of `w` and the transcript of the verifier data. -/
theorem aggregateVerifier2_frame (E : Env F G) (v : ReadyToVerify F G) (vd vd2 : VerifierData F G E.St)
    (hix : vd2.ix = vd.ix) (hm : vd2.mer = vd.mer) (a : ReadyToVerify F G) (b : VerifierData F G E.St)
    (h : aggregateVerifier2 E v vd = .ok (a, b)) :
    aggregateVerifier2 E v vd2 = .ok (a, { vd2 with mer := b.mer }) ∧ b = { vd with mer := b.mer } := by
  unfold aggregateVerifier2 at h ⊢
  simp only [hix, hm] at h ⊢
  obtain ⟨uV, h1, h⟩ := Res.bind_eq_ok.1 h
  rw [h1]
  simp only [Res.ok_bind]
  split at h
  · cases h
  · rename_i hc
    rw [if_neg hc]
    obtain ⟨ip, h2, h⟩ := Res.bind_eq_ok.1 h
    rw [h2]
    simp only [Res.ok_bind]
    obtain ⟨A, h3, h⟩ := Res.bind_eq_ok.1 h
    rw [h3]
    simp only [Res.ok_bind]
    obtain ⟨t, h4, h⟩ := Res.bind_eq_ok.1 h
    rw [h4]
    simp only [Res.ok_bind]
    have := Res.ok.inj h
    simp only [Prod.mk.injEq] at this
    obtain ⟨rfl, rfl⟩ := this
    exact ⟨rfl, rfl⟩

/-- **C42.** Everything in the aggregated statement is public: whenever `aggregateProver` succeeds, a
verifier who knows the constraints, the commitments and the transcript, and is sent the new
commitment (to the value of `w`), computes the same two statements, commitments and offsets, and ends
in the same transcript state. -/
theorem C42_public (E : Env F G) (tie : List (CompIter F) → ℕ) (wRnd : F) (v v' : ReadyToProve F G)
    (vd vd' : VerifierData F G E.St) (pd pd' : ProverData F)
    (h : aggregateProver E tie wRnd v vd pd = .ok (v', vd', pd')) :
    ∃ v2, publicStatement E tie v.toReadyToVerify vd vd'.com.w = .ok (v2, vd'.mer) ∧
      v'.linCnstr = v2.linCnstr ∧ v'.quadCnstr = v2.quadCnstr ∧ v'.linCom = v2.linCom ∧
      v'.quadCom = v2.quadCom ∧ v'.deltaG = v2.deltaG ∧ v'.deltaH = v2.deltaH := by
  unfold aggregateProver at h
  obtain ⟨⟨v1, vd1⟩, h1, h⟩ := Res.bind_eq_ok.1 h
  simp only at h
  obtain ⟨qG, h2, h⟩ := Res.bind_eq_ok.1 h
  obtain ⟨rnd, h3, h⟩ := Res.bind_eq_ok.1 h
  split at h
  · cases h
  · obtain ⟨wG, h4, h⟩ := Res.bind_eq_ok.1 h
    obtain ⟨⟨v2, vd2⟩, h5, h⟩ := Res.bind_eq_ok.1 h
    simp only at h
    obtain ⟨g, h6, h⟩ := Res.bind_eq_ok.1 h
    obtain ⟨hh, h7, h⟩ := Res.bind_eq_ok.1 h
    have := Res.ok.inj h
    simp only [Prod.mk.injEq] at this
    obtain ⟨rfl, rfl, rfl⟩ := this
    have hf := aggregateVerifier2_frame E _ _ vd1 (by rfl) (by rfl) _ _ h5
    refine ⟨v2, ?_, rfl, rfl, rfl, rfl, rfl, rfl⟩
    have hw : vd2.com.w = wRnd • E.base + innerProductMap v1.bs pd.linWitness • wG := by
      rw [hf.2]
    unfold publicStatement
    rw [h1]
    simp only [Res.ok_bind]
    rw [hw, hf.1]
    rfl

/-- **C42, the exceptional challenge.** The code divides by the powers of the challenge
`aggregateNorms`: if it is zero, `aggregateProver` throws. -/
theorem C42_zero_challenge (E : Env F G) (tie : List (CompIter F) → ℕ) (wRnd : F) (v : ReadyToProve F G)
    (vd : VerifierData F G E.St) (pd : ProverData F) (kay enn tee : ℕ) (x : ℕ → F)
    (hP : Prepared E.base kay enn tee vd pd x) (r1 : F) (st1 st2 : E.St)
    (h1 : E.newChallenge vd.mer (str "aggregateLinear") = (r1, st1))
    (h2 : E.newChallenge st1 (str "aggregateNorms") = (0, st2)) :
    aggregateProver E tie wRnd v vd pd = .throw := by
  have hlen : 1 ≤ vd.linConstr.length := List.length_pos_iff.2 hP.linNonempty
  obtain ⟨c, c1, -⟩ := merge_spec tie vd.linConstr (pows r1 vd.linConstr.length)
    (pows_length _ _).symm hP.linSorted
  obtain ⟨qc, q1, -⟩ := (Props.C18_merge vd.normConstr (pows (0 : F) 10)).2
    (by rw [pows_length, hP.normLength])
  have hb : ∃ c0 c1 cs, vd.normConstr = c0 :: c1 :: cs := by
    have := hP.normLength
    match hm : vd.normConstr with
    | [] => rw [hm] at this; simp at this
    | [_] => rw [hm] at this; simp at this
    | c0 :: c1 :: cs => exact ⟨c0, c1, cs, rfl⟩
  obtain ⟨n0, n1, ns, hns⟩ := hb
  have hn1 : n1.indexes ≠ [] := by
    have := hP.normBlocks 1 (by rw [hns]; simp)
    simp only [hns, List.getElem_cons_succ, List.getElem_cons_zero] at this
    rw [this]
    intro h0
    have := congrArg List.length h0
    simp only [List.length_range', List.length_nil] at this
    omega
  have hn0 : ∀ i ∈ n0.indexes, i < 2 ^ 31 := by
    have := hP.normBlocks 0 (by rw [hns]; simp)
    simp only [hns, List.getElem_cons_zero] at this
    rw [this]
    intro i hi
    rw [List.mem_range'_1] at hi
    omega
  have hd : divLoop (pows (0 : F) 10) vd.normConstr c.terms = .throw := by
    have hp : pows (0 : F) 10 = 1 :: 0 :: (List.range' 2 8).map fun i => (0 : F) ^ i := by
      simp [pows, List.range_succ, List.range'_succ]
    rw [hp, hns]
    unfold divLoop
    rw [divTerms_eq _ one_ne_zero _ hn0]
    simp only [Res.ok_bind]
    unfold divLoop
    rw [divTerms_zero _ hn1]
    rfl
  unfold aggregateProver aggregateVerifier1
  simp only [h1, h2]
  rw [powerVector_pows _ _ hlen]
  simp only [Res.ok_bind]
  rw [c1]
  simp only [Res.ok_bind]
  rw [hP.normLength, powerVector_pows _ _ (by omega)]
  simp only [Res.ok_bind]
  rw [q1]
  simp only [Res.ok_bind]
  rw [hd]
  rfl

end

section
variable {F G : Type} [Field F] [DecidableEq F] [AddCommGroup G] [Module F G] [DecidableEq G]

/-- **C42, up to the final verification.** Under the hypotheses of `C42_aggregation`, whenever the
provers of the two final proofs succeed, both proofs are
for the commitments of the statement and are accepted; the linear verifier may instead throw, exactly
when its last challenge is zero.  The provers throw exactly when one of the folding challenges of their
runs, `finalChallenges`, is zero, and otherwise succeed. -/
theorem C42_final_proofs (E : Env F G) (tie : List (CompIter F) → ℕ) (coinsL coinsQ : ℕ → F × F)
    (wRnd : F) (v : ReadyToProve F G)
    (vd : VerifierData F G E.St) (pd : ProverData F) (kay enn tee : ℕ) (x : ℕ → F)
    (hP : Prepared E.base kay enn tee vd pd x) (r1 r2 : F) (st1 st2 : E.St)
    (h1 : E.newChallenge vd.mer (str "aggregateLinear") = (r1, st1))
    (h2 : E.newChallenge st1 (str "aggregateNorms") = (r2, st2))
    (hC : GoodChallenges vd x r1 r2) :
    ∃ v' vd' pd', aggregateProver E tie wRnd v vd pd = .ok (v', vd', pd') ∧
      (∀ rtv merL merQ pfL pfQ,
        finalProve E coinsL coinsQ v' vd' pd' = .ok (rtv, merL, merQ, pfL, pfQ) →
        rtv.linCom = v'.linCom ∧ rtv.quadCom = v'.quadCom ∧ pfL.C = v'.linCom ∧ pfQ.C = v'.quadCom ∧
        (finalVerifyLin E rtv merL pfL = .ok true ∨
          (finalVerifyLin E rtv merL pfL = .throw ∧ (deriveLin E pfL rtv.linGs.length merL).x = 0)) ∧
        finalVerifyQuad E rtv merQ pfQ = .ok true) ∧
      ((0 ∈ finalChallenges E coinsL coinsQ v' vd' pd' ∧
        finalProve E coinsL coinsQ v' vd' pd' = .throw) ∨
       (0 ∉ finalChallenges E coinsL coinsQ v' vd' pd' ∧
        ∃ out, finalProve E coinsL coinsQ v' vd' pd' = .ok out)) := by
  obtain ⟨v', vd', pd', a1, a2, a3, a4, a5, a6, a7, a8, a9, a10, a11, a12, a13, a14, a15, a16, a17,
    a18⟩ := C42_aggregation E tie wRnd v vd pd kay enn tee x hP r1 r2 st1 st2 h1 h2 hC
  have hw := layout_w hP.layout
  have hG := hP.gs
  have hH := hP.hs
  have hs := hP.small
  refine ⟨v', vd', pd', a1, ?_⟩
  have hsl : Sorted pd'.linWitness := by
    unfold Sorted
    rw [← List.pairwise_map (f := Prod.fst) (R := (· < ·))]
    change (keys pd'.linWitness).Pairwise (· < ·)
    rw [a8]
    exact keys_sorted a5
  have hss : SortedSet v'.quadCnstr.indexes := by
    rw [a10]
    unfold SortedSet
    rw [List.pairwise_append]
    refine ⟨List.pairwise_lt_range, by simp, ?_⟩
    intro a ha b hb
    rw [List.mem_singleton.1 hb]
    have := List.mem_range.1 ha
    omega
  have htab : ∀ m : PtxtVec F, keys m = v'.quadCnstr.indexes →
      m = tab (List.range (260 * 10) ++ [vd.ix.w]) (coef m) := by
    intro m hm
    have hsm : Sorted m := by
      unfold Sorted
      rw [← List.pairwise_map (f := Prod.fst) (R := (· < ·))]
      change (keys m).Pairwise (· < ·)
      rw [hm]; exact hss
    rw [← a10, ← hm]
    exact map_eq_tab hsm
  rw [← a4] at hw hs hG a6 a10 a17 a18 htab
  rw [← a2] at hG a16 a17
  rw [← a3] at hH a17
  exact final_accepted E coinsL coinsQ v' vd' pd' (260 * 10) (by omega) (by omega) hs hG hH
    (coef pd'.linWitness) (coef v'.deltaG) (coef v'.deltaH) (coef pd'.quadWitnessG)
    (coef pd'.quadWitnessH) a7 a5 a6 a10 (by rw [← a8]; exact map_eq_tab hsl) (htab _ a13) (htab _ a14)
    (htab _ a11) (htab _ a12) a9 a15 a16 (by rw [a18, zero_smul, add_zero]; exact a17)

end
/-- The hypotheses can be met: the layout of the real parameters (any `kay`, `enn`, `tee`), the
assignment `x_i = i` for the quadratic variables and the last one, commitments opening to it, and
challenge 2. -/
theorem toyPrepared_exists (kay enn tee : ℕ) (hs : (setIndexesNat kay 2 enn tee).w < 2 ^ 31) :
    ∃ (vd : VerifierData ℚ ℚ (toyEnv 2).St) (pd : ProverData ℚ) (x : ℕ → ℚ) (r1 r2 : ℚ)
      (st1 st2 : (toyEnv 2).St), Prepared (toyEnv 2).base kay enn tee vd pd x ∧
      (toyEnv 2).newChallenge vd.mer (str "aggregateLinear") = (r1, st1) ∧
      (toyEnv 2).newChallenge st1 (str "aggregateNorms") = (r2, st2) ∧
      GoodChallenges vd x r1 r2 ∧ x 7 ≠ 0 := by
  obtain ⟨ix, hix⟩ : ∃ ix, ix = setIndexesNat kay 2 enn tee := ⟨_, rfl⟩
  have hw : 260 * 10 + 128 ≤ ix.w := layout_w (Or.inl hix)
  rw [← hix] at hs
  obtain ⟨x, hx⟩ : ∃ x : ℕ → ℚ, x = fun i => if i < 260 * 10 ∨ i = ix.w - 1 then (i : ℚ) else 0 := ⟨_, rfl⟩
  have hP := demo_prepared (F := ℚ) (St := (toyEnv 2).St) [] (toyEnv 2).base
    (List.replicate (ix.w + 1) (3 : ℚ)) (List.replicate (260 * 10) 5) kay enn tee x
    ⟨1, 2, 3, 4, 5, 6, 7, 8, 9, 10, 11, 12, 13, 14, 15, 16, 17, 18, 19, 20, 21, 22, 23, 24, 25, 26, 27⟩
    ix (Or.inl hix) hw hs (by rw [List.length_replicate]) (by rw [List.length_replicate])
  refine ⟨_, _, x, 2, 2, _, _, hP, rfl, rfl, ⟨by norm_num, ?_, ?_⟩, ?_⟩
  · simp only [demoVd, aggCoef, pows, coef]
    have h7 : ¬ 7 = ix.w - 1 := by omega
    simp [h7]
  · intro i h1 h2
    have h2 : i < ix.w := h2
    by_cases hi : i = ix.w - 1
    · right
      simp only [demoVd, aggCoef, pows, coef]
      have h7 : ¬ 7 = ix.w - 1 := by omega
      simp [hi, h7]
    · left
      rw [hx]
      simp only
      rw [if_neg (by omega)]
  · rw [hx]
    simp only
    rw [if_pos (by omega)]
    norm_num

end Verif.Props
