import Verif.Lemmas.RegevSteps4

namespace Verif
open Spec Regev
open scoped BigOperators

section
variable {q : ℕ} [Fact q.Prime] {G : Type} [AddCommGroup G] [Module (ZMod q) G]

theorem power128 (ξ : Elt (ZMod q) 2) : powerVector ξ (JLDIM / 2) = .ok ((List.range 128).map fun i => ξ ^ i) :=
  (Props.C41_powers ξ (JLDIM / 2)).1 (by decide)

/-- What a decryption proof records. -/
theorem dec_run {E : Env (ZMod q) G} (hE : LengthOk E) {P : Params q} (hP : ParamsOk P)
    {tests : ℕ → Tests} (hT : ∀ k, NoFalsePrimes (tests k).probPrime) {fresh : Blocks (ZMod q)}
    {vd vd' : VerifierData (ZMod q) G E.St} {pd pd' : ProverData (ZMod q)} (S : Setup P vd pd)
    {ctMat : EMat q 2} {ctVec : EVec q 2} {ptxt : List (ZMod q)} {skey noise : EVec q 2}
    (hM : HasShape ctMat P.gk.kay P.gk.tee) (hV : ctVec.length = P.gk.tee)
    (hpt : ptxt.length = P.gk.tee) (hno : noise.length = P.gk.tee)
    (h : proveDecryption E P fresh tests vd pd ctMat ctVec ptxt skey noise = .ok (vd', pd')) :
    ∃ hi lo : Padded q,
      Step P tests vd pd vd' pd' [0] [(0, hi), (1, lo)]
        (pairWrites [(0, hi), (1, lo)] ++ [(vd.ix.sk1, coeffs skey), (vd.ix.pt1, ptxt)]) ∧
      (∀ j < 128, lo.comp.getD j 0 + (P.radix : ZMod q) • hi.comp.getD j 0 =
        ∑ i ∈ Finset.range P.gk.tee, noise.getD i 0 * (decChallenges E vd.mer P.gk.tee vd'.com).1 i j) ∧
      Says vd'.linConstr 0 (fun k => k < vd.ix.w) (fun x => batch 128 (decChallenges E vd.mer P.gk.tee vd'.com).2.1
        fun j => digits x vd.ix.dCompLo vd.ix.dCompHi P.radix j - ∑ i ∈ Finset.range P.gk.tee,
          decNoise P.delta P.gk.kay ctMat ctVec vd.ix.sk1 vd.ix.pt1 x i *
            (decChallenges E vd.mer P.gk.tee vd'.com).1 i j) ∧
      (∀ x, (∀ p ∈ pairWrites [(0, hi), (1, lo)] ++ [(vd.ix.sk1, coeffs skey), (vd.ix.pt1, ptxt)],
          Reads x p.1 p.2) →
        vd'.com.dCompHi = comGH E.base vd.Gs vd.Hs x x vd.ix.dCompHi 256 pd'.rnd.dCompHi ∧
        vd'.com.dPadHi = comGH E.base vd.Gs vd.Hs x x vd.ix.dPadHi 4 pd'.rnd.dPadHi ∧
        vd'.com.dCompLo = comGH E.base vd.Gs vd.Hs x x vd.ix.dCompLo 256 pd'.rnd.dCompLo ∧
        vd'.com.dPadLo = comGH E.base vd.Gs vd.Hs x x vd.ix.dPadLo 4 pd'.rnd.dPadLo ∧
        vd'.com.pt1 = comG E.base vd.Gs x vd.ix.pt1 P.gk.tee pd'.rnd.pt1) ∧
      vd'.com = { vd.com with pt1 := vd'.com.pt1, dCompHi := vd'.com.dCompHi, dPadHi := vd'.com.dPadHi,
                              dCompLo := vd'.com.dCompLo, dPadLo := vd'.com.dPadLo } ∧
      pd'.rnd = { pd.rnd with pt1 := fresh.pt1, dCompHi := fresh.dCompHi, dPadHi := fresh.dPadHi,
                              dCompLo := fresh.dCompLo, dPadLo := fresh.dPadLo } ∧
      vd'.mer = (decChallenges E vd.mer P.gk.tee vd'.com).2.2 ∧ vd'.z = vd.z := by
  have hL := lay_of S.layout
  have hGs := S.gs
  have hHs := S.hs
  unfold proveDecryption at h
  simp only at h
  obtain ⟨pt1Com, a1, h1⟩ := Res.bind_eq_ok.1 h
  obtain ⟨⟨R, m1⟩, a2, h2⟩ := Res.bind_eq_ok.1 h1
  obtain ⟨comp, a3, h3⟩ := Res.bind_eq_ok.1 h2
  obtain ⟨⟨cHi, cLo⟩, a4, h4⟩ := Res.bind_eq_ok.1 h3
  obtain ⟨hi, a5, h5⟩ := Res.bind_eq_ok.1 h4
  obtain ⟨lo, a6, h6⟩ := Res.bind_eq_ok.1 h5
  obtain ⟨dHi, a7, h7⟩ := Res.bind_eq_ok.1 h6
  obtain ⟨dLo, a8, h8⟩ := Res.bind_eq_ok.1 h7
  rw [newElement_eq hE, Res.ok_bind] at h8
  simp only at h8
  rw [power128, Res.ok_bind] at h8
  obtain ⟨lin, a9, h9⟩ := Res.bind_eq_ok.1 h8
  obtain ⟨hm1, hR⟩ := newTernaryE_ok hE hP.tee (by decide) a2
  subst hm1
  obtain ⟨w, b1, b2, b3⟩ := hR.left noise hno
  rw [b1] at a3
  obtain rfl := Res.ok.inj a3
  obtain ⟨d1, d2, d3⟩ := digits_eq hP.radix a4
  have hne : ∀ v : EVec q 2, v.length = 128 → v ≠ [] := fun v hv he => by rw [he] at hv; simp at hv
  have b2' : w.length = 128 := b2
  obtain ⟨c1, c2, c3⟩ := padTo_ok (hT 0) (hne cHi (by omega)) (hP.small 0 (by norm_num)).1 a5
  obtain ⟨c4, c5, c6⟩ := padTo_ok (hT 1) (hne cLo (by omega)) (hP.small 1 (by norm_num)).1 a6
  subst c1
  subst c4
  have lHi : hi.comp.length = 128 := by omega
  have lLo : lo.comp.length = 128 := by omega
  have hN : NormInv vd.normConstr := ⟨S.normLength, S.norm⟩
  rw [hL.dCompHi, hL.dPadHi, hL.dCompLo, hL.dPadLo] at h9
  rw [setNorm_eq hN (by norm_num), Res.ok_bind, setNorm_eq (hN.set 0 _) (by norm_num), Res.ok_bind] at h9
  obtain ⟨o1, e1, e2, e3⟩ := copyPair_spec S.compressed (k := 0) (by norm_num) lHi c2
  rw [e1, Res.ok_bind] at h9
  obtain ⟨o2, e4, e5, e6⟩ := copyPair_spec e2 (k := 1) (by norm_num) lLo c5
  rw [e4, Res.ok_bind] at h9
  obtain ⟨rfl, rfl⟩ := Prod.mk.inj (Res.ok.inj h9)
  obtain ⟨out, f1, f2, f3⟩ := onSlot_says (cs := vd.linConstr) (s := 0) (by have := S.lin; omega)
    (decConstraints_spec P (w := vd.ix.w) hR _ hP.kay hM hV
      (by rw [hL.dCompLo, hL.w]; omega) (by rw [hL.dCompHi, hL.w]; omega)
      (by rw [hL.w]; rcases hL.sk with h | h <;> omega) (by rw [hL.pt1, hL.w]; omega)
      (by rw [List.drop_zero]; have := S.lin; omega))
  rw [f1] at a9
  obtain rfl := Res.ok.inj a9
  refine ⟨hi, lo, ⟨rfl, rfl, rfl, f3.1, ?_, rfl, e5, ⟨o1, e3, o2, e6, rfl⟩, ?_, by simp, ?_, ?_, ?_⟩,
    ?_, ?_, ?_, rfl, rfl, ?_, rfl⟩
  · intro i hi
    have := hi 0 (by simp)
    exact f3.2 i this.1 this.2
  · intro p hp
    simp only [List.mem_cons, List.not_mem_nil, or_false] at hp
    rcases hp with rfl | rfl
    · exact ⟨by norm_num, lHi, c2, c3⟩
    · exact ⟨by norm_num, lLo, c5, c6⟩
  · dsimp only
    rw [putPair_eq, putPair_eq, addE_eq]
    rfl
  · dsimp only
    rw [putPair_eq, putPair_eq]
    rfl
  · intro p hp
    exact List.mem_append_left _ hp
  · intro j hj
    rw [d3 j (by omega), b3 j hj]
    rfl
  · exact f2
  · intro x hx
    simp only [pairWrites, List.flatMap_cons, List.flatMap_nil, List.cons_append, List.nil_append,
      List.append_nil, List.forall_mem_cons] at hx
    obtain ⟨x1, x2, x3, x4, x5, x6, -⟩ := hx
    rw [hL.dCompHi, hL.dPadHi] at a7
    rw [hL.dCompLo, hL.dPadLo] at a8
    have o1 := commitPair_opens (by norm_num) lHi c2 (by rw [hL.w] at hGs; omega) (by omega) a7 x1 x2
    have o2 := commitPair_opens (by norm_num) lLo c5 (by rw [hL.w] at hGs; omega) (by omega) a8 x3 x4
    have o3 := commitS_opens (by rw [hpt, hL.pt1]; rw [hL.w] at hGs; omega) a1 x x6
    rw [hpt] at o3
    simp only [hL.dCompHi, hL.dPadHi, hL.dCompLo, hL.dPadLo]
    exact ⟨o1.1, o1.2, o2.1, o2.2, o3⟩
  · rfl

end
end Verif
