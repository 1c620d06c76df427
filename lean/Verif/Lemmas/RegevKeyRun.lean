import Verif.Lemmas.RegevEncRun

namespace Verif
open Spec Regev
open scoped BigOperators

section
variable {q : ℕ} [Fact q.Prime] {G : Type} [AddCommGroup G] [Module (ZMod q) G]

/-- What a key-generation proof records. -/
theorem key_run {E : Env (ZMod q) G} (hE : LengthOk E) {P : Params q} (hP : ParamsOk P)
    {tests : ℕ → Tests} (hT : ∀ k, NoFalsePrimes (tests k).probPrime) {fresh : Blocks (ZMod q)}
    {vd vd' : VerifierData (ZMod q) G E.St} {pd pd' : ProverData (ZMod q)} (S : Setup P vd pd)
    {pkNum : ℕ} {skey noise : EVec q 2} (hs : skey.length = P.gk.kay) (hno : noise.length = P.gk.kay)
    (h : proveKeyGen E P fresh tests vd pd pkNum skey noise = .ok (vd', pd')) :
    ∃ sk hi lo : Padded q, ∃ C, C = keyChallenges E vd.mer P.gk.kay vd'.com ∧
      Step P tests vd pd vd' pd' [8, 10] [(7, sk), (8, hi), (9, lo)]
        ((vd.ix.sk2, coeffs skey) :: pairWrites [(7, sk), (8, hi), (9, lo)]) ∧
      (∀ j < 128, lo.comp.getD j 0 + (P.radix : ZMod q) • hi.comp.getD j 0 =
        ∑ i ∈ Finset.range P.gk.kay, noise.getD i 0 * C.R1 i j) ∧
      (∀ j < 128, sk.comp.getD j 0 = ∑ i ∈ Finset.range P.gk.kay, skey.getD i 0 * C.R2 i j) ∧
      pkNum < P.gk.enn ∧
      Says vd'.linConstr 8 (fun k => k < vd.ix.w) (fun x => batch 128 C.x1
        fun j => digits x vd.ix.kCompLo vd.ix.kCompHi P.radix j - ∑ i ∈ Finset.range P.gk.kay,
          keyNoise P.gk.kay P.gk.A (P.gk.B.getD pkNum []) vd.ix.sk2 x i * C.R1 i j) ∧
      Says vd'.linConstr 10 (fun k => k < vd.ix.w) (fun x => batch 128 C.x2
        fun j => eltAt x vd.ix.sk2Comp j - ∑ i ∈ Finset.range P.gk.kay, eltAt x vd.ix.sk2 i * C.R2 i j) ∧
      (∀ x, (∀ p ∈ (vd.ix.sk2, coeffs skey) :: pairWrites [(7, sk), (8, hi), (9, lo)], Reads x p.1 p.2) →
        vd'.com.sk2Comp = comGH E.base vd.Gs vd.Hs x x vd.ix.sk2Comp 256 pd'.rnd.sk2Comp ∧
        vd'.com.sk2Pad = comGH E.base vd.Gs vd.Hs x x vd.ix.sk2Pad 4 pd'.rnd.sk2Pad ∧
        vd'.com.kCompHi = comGH E.base vd.Gs vd.Hs x x vd.ix.kCompHi 256 pd'.rnd.kCompHi ∧
        vd'.com.kPadHi = comGH E.base vd.Gs vd.Hs x x vd.ix.kPadHi 4 pd'.rnd.kPadHi ∧
        vd'.com.kCompLo = comGH E.base vd.Gs vd.Hs x x vd.ix.kCompLo 256 pd'.rnd.kCompLo ∧
        vd'.com.kPadLo = comGH E.base vd.Gs vd.Hs x x vd.ix.kPadLo 4 pd'.rnd.kPadLo ∧
        vd'.com.sk2 = comG E.base vd.Gs x vd.ix.sk2 (P.gk.kay * 2) pd'.rnd.sk2) ∧
      vd'.com = { vd.com with sk2 := vd'.com.sk2, sk2Comp := vd'.com.sk2Comp, sk2Pad := vd'.com.sk2Pad,
                              kCompHi := vd'.com.kCompHi, kPadHi := vd'.com.kPadHi,
                              kCompLo := vd'.com.kCompLo, kPadLo := vd'.com.kPadLo } ∧
      pd'.rnd = { pd.rnd with sk2 := fresh.sk2, sk2Comp := fresh.sk2Comp, sk2Pad := fresh.sk2Pad,
                              kCompHi := fresh.kCompHi, kPadHi := fresh.kPadHi,
                              kCompLo := fresh.kCompLo, kPadLo := fresh.kPadLo } ∧
      vd'.mer = C.st ∧ vd'.z = vd.z := by
  have hL := lay_of S.layout
  have hGs := S.gs
  have hHs := S.hs
  have hlin := S.lin
  unfold proveKeyGen at h
  simp only at h
  obtain ⟨skCom, a1, h1⟩ := Res.bind_eq_ok.1 h
  obtain ⟨⟨R1, m1⟩, a3, h3⟩ := Res.bind_eq_ok.1 h1
  obtain ⟨⟨R2, m2⟩, a4, h4⟩ := Res.bind_eq_ok.1 h3
  obtain ⟨w1, a6, h6a⟩ := Res.bind_eq_ok.1 h4
  obtain ⟨w2, a7, h7⟩ := Res.bind_eq_ok.1 h6a
  obtain ⟨⟨cHi, cLo⟩, a9, h9⟩ := Res.bind_eq_ok.1 h7
  obtain ⟨sk, a11, h11⟩ := Res.bind_eq_ok.1 h9
  obtain ⟨hi, a12, h12⟩ := Res.bind_eq_ok.1 h11
  obtain ⟨lo, a13, h13⟩ := Res.bind_eq_ok.1 h12
  obtain ⟨gSk, a16, h16⟩ := Res.bind_eq_ok.1 h13
  obtain ⟨gHi, a17, h17⟩ := Res.bind_eq_ok.1 h16
  obtain ⟨gLo, a18, h20⟩ := Res.bind_eq_ok.1 h17
  clear h h1 h3 h4 h6a h7 h9 h11 h12 h13 h16 h17
  obtain ⟨hm1, hR1⟩ := newTernaryE_ok hE hP.kay (by decide) a3
  obtain ⟨hm2, hR2⟩ := newTernaryE_ok hE hP.kay (by decide) a4
  subst hm1
  subst hm2
  -- the linear constraints
  obtain ⟨c1, b1, b2, b3⟩ := onSlot_spec (cs := vd.linConstr) (s := 8) (by omega)
    (resetSlot_spec (vd.linConstr.drop 8) (by simp; omega))
  have l1 := b3.1
  obtain ⟨c2, b4, b5, b6⟩ := onSlot_spec (cs := c1) (s := 10) (by omega)
    (resetSlot_spec (c1.drop 10) (by simp; omega))
  have l2 := b6.1
  rw [b1, Res.ok_bind, b4, Res.ok_bind, newElement_eq hE, Res.ok_bind] at h20
  simp only at h20
  rw [power128, Res.ok_bind] at h20
  obtain ⟨pk, a20, h20'⟩ := Res.bind_eq_ok.1 h20
  obtain ⟨c3, a21, h21⟩ := Res.bind_eq_ok.1 h20'
  rw [newElement_eq hE, Res.ok_bind] at h21
  simp only at h21
  rw [power128, Res.ok_bind] at h21
  obtain ⟨c4, a22, h23⟩ := Res.bind_eq_ok.1 h21
  clear h20 h20' h21
  have hpk : pkNum < P.gk.enn ∧ pk = P.gk.B.getD pkNum [] ∧ pk.length = P.gk.kay := by
    by_cases hlt : pkNum < P.gk.B.length
    · rw [rd_ok hlt] at a20
      obtain rfl := Res.ok.inj a20
      refine ⟨by rw [← hP.B.1]; exact hlt, ?_, hP.B.2 _ (List.getElem_mem hlt)⟩
      rw [List.getD_eq_getElem?_getD, List.getElem?_eq_getElem hlt]; rfl
    · unfold rd at a20
      rw [List.getElem?_eq_none (by omega)] at a20
      cases a20
  obtain ⟨hpk1, hpk2, hpk3⟩ := hpk
  subst hpk2
  obtain ⟨o3, d1, d2, d3⟩ := onSlot_says (cs := c2) (s := 8) (by omega)
    (keyConstraints1_spec P (w := vd.ix.w) rfl hR1 _ hP.A hpk3
      (by rw [hL.kCompLo, hL.w]; omega) (by rw [hL.kCompHi, hL.w]; omega)
      (by rw [hL.w]; rcases hL.sk with h | h <;> omega)
      (fun k hk => hk.elim) (b2.other b6 (by omega)))
  rw [d1] at a21
  obtain rfl := Res.ok.inj a21
  have l3 := d3.1
  obtain ⟨o4, d4, d5, d6⟩ := onSlot_says (cs := o3) (s := 10) (by omega)
    (keyConstraints2_spec (w := vd.ix.w) hR2 _
      (by rw [hL.sk2Comp, hL.w]; omega) (by rw [hL.w]; rcases hL.sk with h | h <;> omega)
      (fun k hk => hk.elim) (b5.other d3 (by omega)))
  rw [d4] at a22
  obtain rfl := Res.ok.inj a22
  have l4 := d6.1
  -- the vectors
  obtain ⟨v1, e1, e2, e3⟩ := hR1.left noise hno
  rw [e1] at a6
  obtain rfl := Res.ok.inj a6
  obtain ⟨v2, e4, e5, e6⟩ := hR2.left skey hs
  rw [e4] at a7
  obtain rfl := Res.ok.inj a7
  have e2' : v1.length = 128 := e2
  have e5' : v2.length = 128 := e5
  obtain ⟨g1, g2, g3⟩ := digits_eq hP.radix a9
  have hne : ∀ v : EVec q 2, v.length = 128 → v ≠ [] := fun v hv he => by rw [he] at hv; simp at hv
  obtain ⟨k1, k2, k3⟩ := padTo_ok (hT 7) (hne v2 (by omega)) (hP.small 7 (by norm_num)).1 a11
  obtain ⟨k4, k5, k6⟩ := padTo_ok (hT 8) (hne cHi (by omega)) (hP.small 8 (by norm_num)).1 a12
  obtain ⟨k7, k8, k9⟩ := padTo_ok (hT 9) (hne cLo (by omega)) (hP.small 9 (by norm_num)).1 a13
  subst k1
  subst k4
  subst k7
  have q1 : sk.comp.length = 128 := by omega
  have q2 : hi.comp.length = 128 := by omega
  have q3 : lo.comp.length = 128 := by omega
  have hN : NormInv vd.normConstr := ⟨S.normLength, S.norm⟩
  rw [hL.sk2Comp, hL.sk2Pad, hL.kCompHi, hL.kPadHi, hL.kCompLo, hL.kPadLo] at h23
  rw [setNorm_eq hN (by norm_num), Res.ok_bind, setNorm_eq (hN.set 7 _) (by norm_num), Res.ok_bind,
    setNorm_eq ((hN.set 7 _).set 8 _) (by norm_num), Res.ok_bind] at h23
  obtain ⟨z1, y1, y2, y3⟩ := copyPair_spec S.compressed (k := 7) (by norm_num) q1 k2
  obtain ⟨z2, y4, y5, y6⟩ := copyPair_spec y2 (k := 8) (by norm_num) q2 k5
  obtain ⟨z3, y7, y8, y9⟩ := copyPair_spec y5 (k := 9) (by norm_num) q3 k8
  rw [y1, Res.ok_bind, y4, Res.ok_bind, y7, Res.ok_bind] at h23
  obtain ⟨rfl, rfl⟩ := Prod.mk.inj (Res.ok.inj h23)
  refine ⟨sk, hi, lo, _, rfl,
    ⟨rfl, rfl, rfl, ?_, ?_, rfl, y8, ⟨z1, y3, z2, y6, z3, y9, rfl⟩, ?_, by simp, ?_, ?_, ?_⟩,
    ?_, ?_, hpk1, ?_, ?_, ?_, rfl, rfl, rfl, rfl⟩
  · rw [d6.1, l3, l2, l1]
  · intro i hi
    have i1 := hi 8 (by simp)
    have i2 := hi 10 (by simp)
    dsimp only
    rw [d6.2 i i2.1 i2.2, d3.2 i i1.1 i1.2, b6.2 i i2.1 i2.2, b3.2 i i1.1 i1.2]
  · intro p hp
    simp only [List.mem_cons, List.not_mem_nil, or_false] at hp
    rcases hp with rfl | rfl | rfl
    · exact ⟨by norm_num, q1, k2, k3⟩
    · exact ⟨by norm_num, q2, k5, k6⟩
    · exact ⟨by norm_num, q3, k8, k9⟩
  · dsimp only
    rw [addE_eq, putPair_eq, putPair_eq, putPair_eq]
    rfl
  · dsimp only
    rw [putPair_eq, putPair_eq, putPair_eq]
    rfl
  · intro p hp
    exact List.mem_cons_of_mem _ hp
  · intro j hj
    rw [g3 j (by omega), e3 j hj]
    rfl
  · intro j hj
    rw [e6 j hj]
    rfl
  · have := d2.other d6 (by omega)
    simp only [zero_add] at this
    exact this
  · simp only [zero_add] at d5
    exact d5
  · intro x hx
    simp only [pairWrites, List.flatMap_cons, List.flatMap_nil, List.cons_append, List.nil_append,
      List.append_nil, List.forall_mem_cons] at hx
    obtain ⟨x7, x1, x2, x3, x4, x5, x6, -⟩ := hx
    have hG : 2600 ≤ vd.Gs.length := by rw [hL.w] at hGs; omega
    rw [hL.sk2Comp, hL.sk2Pad] at a16
    rw [hL.kCompHi, hL.kPadHi] at a17
    rw [hL.kCompLo, hL.kPadLo] at a18
    have o1 := commitPair_opens (by norm_num) q1 k2 hG hHs a16 x1 x2
    have o2 := commitPair_opens (by norm_num) q2 k5 hG hHs a17 x3 x4
    have o3 := commitPair_opens (by norm_num) q3 k8 hG hHs a18 x5 x6
    have o6 := commitE_opens (by rw [hs]; rw [hL.w] at hGs; rcases hL.sk with h | h <;> omega) a1 x x7
    rw [hs] at o6
    simp only [hL.sk2Comp, hL.sk2Pad, hL.kCompHi, hL.kPadHi, hL.kCompLo, hL.kPadLo]
    exact ⟨o1.1, o1.2, o2.1, o2.2, o3.1, o3.2, o6⟩

end
end Verif
