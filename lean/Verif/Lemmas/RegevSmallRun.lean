import Verif.Lemmas.RegevReShare

namespace Verif
open Spec Regev
open scoped BigOperators

section
variable {q : ℕ} [Fact q.Prime] {G : Type} [AddCommGroup G] [Module (ZMod q) G]

theorem power64 (ξ : Elt (ZMod q) 2) : powerVector ξ (LINYDIM / 2) = .ok ((List.range 64).map fun i => ξ ^ i) :=
  (Props.C41_powers ξ (LINYDIM / 2)).1 (by decide)

theorem processVectorE_eq (E : Env (ZMod q) G) (st : E.St) (z : EVec q 2) :
    processVectorE E st (str "masked reply") z = absorbReply E st z := by
  have key : ∀ (l : EVec q 2) (k : ℕ) (st : E.St), (l.zipIdx (k + 1)).foldl (fun st e =>
      E.commit st (if e.2 = 0 then str "masked reply" else []) (Sc.elementBytes e.1 64)) st =
      l.foldl (fun st e => E.commit st [] (Sc.elementBytes e 64)) st := by
    intro l
    induction l with
    | nil => intro k st; rfl
    | cons a l ih =>
      intro k st
      rw [List.zipIdx_cons, List.foldl_cons, List.foldl_cons, if_neg (Nat.succ_ne_zero k)]
      exact ih (k + 1) _
  cases z with
  | nil => rfl
  | cons e es =>
    rw [processVectorE, absorbReply, List.zipIdx_cons, List.foldl_cons, if_pos rfl]
    exact (key es 0 _).symm

/-- What is true of an accepted trial. -/
theorem smallLoop_ok {E : Env (ZMod q) G} {P : Params q} {ix : Indexes} {Gs : List G} {mer : E.St}
    {compressed : EVec q 2} {rnd : ℕ → SmallRnd q} : ∀ (k t : ℕ) {tr : SmallTrial q G E.St},
    smallLoop E P ix Gs mer compressed rnd t k = .ok tr →
    ∃ i u, tr.y = ((List.range 64).map fun j => boundedElement P.smlnsBits ((rnd i).y j)) ∧
      tr.yRnd = (rnd i).r ∧
      commitE E.base tr.y ix.y Gs tr.yRnd = .ok tr.yCom ∧
      newTernaryE E (E.processPoint mer (str "smallnessPf") tr.yCom) (str "Smallness") 1300 64 =
        .ok (tr.R, tr.mer) ∧
      leftVecMultE 2 (eltX (ZMod q)) compressed tr.R = .ok u ∧ vecAdd u tr.y = .ok tr.z ∧
      lInftyNorm u ≤ P.B_smallness.fdiv LINYDIM ∧ lInftyNorm tr.z ≤ P.B_smallness := by
  intro k
  induction k with
  | zero => intro t tr h; cases h
  | succ k ih =>
    intro t tr h
    unfold smallLoop at h
    simp only at h
    obtain ⟨yCom, a1, h1⟩ := Res.bind_eq_ok.1 h
    obtain ⟨⟨R, m1⟩, a2, h2⟩ := Res.bind_eq_ok.1 h1
    obtain ⟨u, a3, h3⟩ := Res.bind_eq_ok.1 h2
    obtain ⟨z, a4, h4⟩ := Res.bind_eq_ok.1 h3
    by_cases hc : lInftyNorm u ≤ P.B_smallness.fdiv LINYDIM ∧ lInftyNorm z ≤ P.B_smallness
    · rw [if_pos hc] at h4
      obtain rfl := Res.ok.inj h4
      exact ⟨t, u, rfl, rfl, a1, a2, a3, a4, hc.1, hc.2⟩
    · rw [if_neg hc] at h4
      exact ih _ h4

/-- What a smallness proof records. -/
theorem small_run {E : Env (ZMod q) G} (hE : LengthOk E) {P : Params q} {rnd : ℕ → SmallRnd q}
    {vd vd' : VerifierData (ZMod q) G E.St} {pd pd' : ProverData (ZMod q)} (S : Setup P vd pd)
    (h : proveSmallness E P rnd vd pd = .ok (vd', pd')) :
    ∃ (i : ℕ) (y u : EVec q 2), y = ((List.range 64).map fun j => boundedElement P.smlnsBits ((rnd i).y j)) ∧
      u.length = 64 ∧
      (∀ j < 64, u.getD j 0 = ∑ i ∈ Finset.range 1300, pd.compressed.getD i 0 *
        (smallChallenges E vd.mer vd'.com vd'.z).1 i j) ∧
      vd'.z.length = 64 ∧ (∀ j < 64, vd'.z.getD j 0 = u.getD j 0 + y.getD j 0) ∧
      lInftyNorm u ≤ P.B_smallness.fdiv LINYDIM ∧ lInftyNorm vd'.z ≤ P.B_smallness ∧
      Says vd'.linConstr 12 (fun k => k < vd.ix.w) (fun x => batch 64 (smallChallenges E vd.mer vd'.com vd'.z).2.1
        fun j => eltAt x vd.ix.y j + (∑ i ∈ Finset.range 1300, eltAt x 0 i *
          (smallChallenges E vd.mer vd'.com vd'.z).1 i j) - vd'.z.getD j 0) ∧
      Outside 12 vd.linConstr vd'.linConstr ∧
      (∀ x, Reads x vd.ix.y (coeffs y) → vd'.com.y = comG E.base vd.Gs x vd.ix.y 128 pd'.rnd.y) ∧
      vd' = { vd with com := { vd.com with y := vd'.com.y }, linConstr := vd'.linConstr, z := vd'.z,
                      mer := (smallChallenges E vd.mer vd'.com vd'.z).2.2 } ∧
      pd' = { pd with rnd := { pd.rnd with y := (rnd i).r }
                      linWitness := putAll pd.linWitness [(vd.ix.y, coeffs y)] } := by
  have hL := lay_of S.layout
  have hGs := S.gs
  have hlin := S.lin
  unfold proveSmallness at h
  rw [if_neg (by simp only [S.compressed]; decide)] at h
  obtain ⟨tr, a1, h1⟩ := Res.bind_eq_ok.1 h
  simp only at h1
  rw [newElement_eq hE, Res.ok_bind] at h1
  simp only at h1
  rw [power64, Res.ok_bind] at h1
  obtain ⟨lin, a2, h2⟩ := Res.bind_eq_ok.1 h1
  obtain ⟨rfl, rfl⟩ := Prod.mk.inj (Res.ok.inj h2)
  obtain ⟨i, u, b1, b2, b3, b4, b5, b6, b7, b8⟩ := smallLoop_ok _ _ a1
  obtain ⟨hm, hR⟩ := newTernaryE_ok hE (by norm_num) (by norm_num) b4
  obtain ⟨w, c1, c2, c3⟩ := hR.left pd.compressed S.compressed
  rw [c1] at b5
  obtain rfl := Res.ok.inj b5
  have hy : tr.y.length = 64 := by rw [b1]; simp
  unfold vecAdd at b6
  rw [if_neg (by omega)] at b6
  have hz := Res.ok.inj b6
  have hzl : tr.z.length = 64 := by rw [← hz, List.length_zipWith]; omega
  obtain ⟨out, f1, f2, f3⟩ := onSlot_says (cs := vd.linConstr) (s := 12) (by omega)
    (smallConstraints_spec (ix := vd.ix) (w := vd.ix.w) hR _ hzl
      (by rw [hL.w]; omega) (by rw [hL.y, hL.w]) (by simp; omega))
  rw [f1] at a2
  obtain rfl := Res.ok.inj a2
  refine ⟨i, tr.y, w, b1, c2, ?_, hzl, ?_, b7, b8, ?_, f3, ?_, ?_, ?_⟩
  · intro j hj
    rw [c3 j hj]
    rfl
  · intro j hj
    dsimp only
    rw [← hz]
    rw [getD_of_lt w (by omega), getD_of_lt tr.y (by omega), getD_of_lt _ (by
      rw [List.length_zipWith]; omega), List.getElem_zipWith]
  · refine f2.congr fun x => ?_
    have hC : (smallChallenges E vd.mer { vd.com with y := tr.yCom } tr.z).1 =
        ternaryOf (E.challenge (E.processPoint vd.mer (str "smallnessPf") tr.yCom) (str "Smallness")
          (2 * ((1300 * 64 + 3) / 4))).1 1300 64 := rfl
    have hC2 : (smallChallenges E vd.mer { vd.com with y := tr.yCom } tr.z).2.1 =
        elementOf (E.challenge (processVectorE E tr.mer (str "masked reply") tr.z)
          (str "SmallnessChallenge") 64).1 := by rw [hm, processVectorE_eq]; rfl
    dsimp only at hC hC2 ⊢
    rw [hC, hC2]
  · intro x hx
    have := commitE_opens (by rw [hy, hL.y]; rw [hL.w] at hGs; omega) b3 x hx
    rw [hy] at this
    exact this
  · rw [hm, processVectorE_eq]
    rfl
  · rw [addE_eq, b2]
    rfl

end
end Verif
