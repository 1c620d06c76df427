import Verif.Lemmas.RegevDec

namespace Verif
open Spec Regev
open scoped BigOperators

section
variable {q : ℕ} [Fact q.Prime] {G : Type} [AddCommGroup G] [Module (ZMod q) G]

theorem slot_pair {cs : List (LinConstraint (ZMod q))} {s w : ℕ} (hs : s + 2 ≤ cs.length)
    (h : SlotOk cs s w) : Pair (cs.drop s) (fun k => k < w)
      ⟨fun i => (cs.getD (s + i) ⟨[], 0⟩).equalsTo⟩ (slotLhs cs s) := by
  intro i
  have hi : s + i.val < cs.length := by omega
  refine ⟨cs.getD (s + i) ⟨[], 0⟩, ?_, (h i).1, (h i).2, rfl, fun x => rfl⟩
  rw [List.getElem?_drop, List.getElem?_eq_getElem hi, List.getD_eq_getElem?_getD,
    List.getElem?_eq_getElem hi]
  rfl

theorem Says.congr {cs : List (LinConstraint (ZMod q))} {s K d d'} (h : Says cs s K d)
    (hd : ∀ x, d x = d' x) : Says cs s K d' := by
  obtain ⟨e, f, h1, h2⟩ := h
  exact ⟨e, f, h1, fun x => (h2 x).trans (hd x)⟩

/-- What an encryption proof records. -/
theorem enc_run {E : Env (ZMod q) G} (hE : LengthOk E) {P : Params q} (hP : ParamsOk P)
    {tests : ℕ → Tests} (hT : ∀ k, NoFalsePrimes (tests k).probPrime) {fresh : Blocks (ZMod q)}
    {vd vd' : VerifierData (ZMod q) G E.St} {pd pd' : ProverData (ZMod q)} (S : Setup P vd pd)
    (h6 : SlotOk vd.linConstr 6 vd.ix.w)
    {ct1 ct2 : EVec q 2} {ptxt : List (ZMod q)} {rnd noise1 noise2 : EVec q 2}
    (hc1 : ct1.length = P.gk.kay) (hc2 : ct2.length = P.gk.enn)
    (hpt : ptxt.length = P.gk.enn) (hr : rnd.length = P.gk.kay)
    (hn1 : noise1.length = P.gk.kay) (hn2 : noise2.length = P.gk.enn)
    (h : proveEncryption E P fresh tests vd pd ct1 ct2 ptxt rnd noise1 noise2 = .ok (vd', pd')) :
    ∃ r hi1 lo1 hi2 lo2 : Padded q, ∃ C, C = encChallenges E vd.mer P.gk.kay P.gk.enn vd'.com ∧
      Step P tests vd pd vd' pd' [2, 4, 6] [(2, r), (3, hi1), (4, lo1), (5, hi2), (6, lo2)]
        (pairWrites [(2, r), (3, hi1), (4, lo1), (5, hi2), (6, lo2)] ++
          [(vd.ix.r, coeffs rnd), (vd.ix.pt2, ptxt)]) ∧
      (∀ j < 128, lo1.comp.getD j 0 + (P.radix : ZMod q) • hi1.comp.getD j 0 =
        ∑ i ∈ Finset.range P.gk.kay, C.R1 j i * noise1.getD i 0) ∧
      (∀ j < 128, lo2.comp.getD j 0 + (P.radix : ZMod q) • hi2.comp.getD j 0 =
        ∑ i ∈ Finset.range P.gk.enn, C.R2 j i * noise2.getD i 0) ∧
      (∀ j < 128, r.comp.getD j 0 = ∑ i ∈ Finset.range P.gk.kay, C.R3 j i * rnd.getD i 0) ∧
      Says vd'.linConstr 2 (fun k => k < vd.ix.w) (fun x => batch 128 C.x1
        fun j => digits x vd.ix.eComp1Lo vd.ix.eComp1Hi P.radix j - ∑ i ∈ Finset.range P.gk.kay,
          C.R1 j i * encNoise1 P.gk.kay P.gk.A ct1 vd.ix.r x i) ∧
      Says vd'.linConstr 4 (fun k => k < vd.ix.w) (fun x => batch 128 C.x2
        fun j => digits x vd.ix.eComp2Lo vd.ix.eComp2Hi P.radix j - ∑ i ∈ Finset.range P.gk.enn,
          C.R2 j i * encNoise2 P.delta P.gk.kay P.gk.B ct2 vd.ix.r vd.ix.pt2 x i) ∧
      Says vd'.linConstr 6 (fun k => k < vd.ix.w) (fun x => slotLhs vd.linConstr 6 x + batch 128 C.x3
        fun j => eltAt x vd.ix.rComp j - ∑ i ∈ Finset.range P.gk.kay, C.R3 j i * eltAt x vd.ix.r i) ∧
      (∀ x, (∀ p ∈ pairWrites [(2, r), (3, hi1), (4, lo1), (5, hi2), (6, lo2)] ++
          [(vd.ix.r, coeffs rnd), (vd.ix.pt2, ptxt)], Reads x p.1 p.2) →
        vd'.com.rComp = comGH E.base vd.Gs vd.Hs x x vd.ix.rComp 256 pd'.rnd.rComp ∧
        vd'.com.rPad = comGH E.base vd.Gs vd.Hs x x vd.ix.rPad 4 pd'.rnd.rPad ∧
        vd'.com.eComp1Hi = comGH E.base vd.Gs vd.Hs x x vd.ix.eComp1Hi 256 pd'.rnd.eComp1Hi ∧
        vd'.com.ePad1Hi = comGH E.base vd.Gs vd.Hs x x vd.ix.ePad1Hi 4 pd'.rnd.ePad1Hi ∧
        vd'.com.eComp1Lo = comGH E.base vd.Gs vd.Hs x x vd.ix.eComp1Lo 256 pd'.rnd.eComp1Lo ∧
        vd'.com.ePad1Lo = comGH E.base vd.Gs vd.Hs x x vd.ix.ePad1Lo 4 pd'.rnd.ePad1Lo ∧
        vd'.com.eComp2Hi = comGH E.base vd.Gs vd.Hs x x vd.ix.eComp2Hi 256 pd'.rnd.eComp2Hi ∧
        vd'.com.ePad2Hi = comGH E.base vd.Gs vd.Hs x x vd.ix.ePad2Hi 4 pd'.rnd.ePad2Hi ∧
        vd'.com.eComp2Lo = comGH E.base vd.Gs vd.Hs x x vd.ix.eComp2Lo 256 pd'.rnd.eComp2Lo ∧
        vd'.com.ePad2Lo = comGH E.base vd.Gs vd.Hs x x vd.ix.ePad2Lo 4 pd'.rnd.ePad2Lo ∧
        vd'.com.r = comG E.base vd.Gs x vd.ix.r (P.gk.kay * 2) pd'.rnd.r ∧
        vd'.com.pt2 = comG E.base vd.Gs x vd.ix.pt2 P.gk.enn pd'.rnd.pt2) ∧
      vd'.com = { vd.com with pt2 := vd'.com.pt2, r := vd'.com.r, rComp := vd'.com.rComp,
                              rPad := vd'.com.rPad, eComp1Hi := vd'.com.eComp1Hi,
                              ePad1Hi := vd'.com.ePad1Hi, eComp1Lo := vd'.com.eComp1Lo,
                              ePad1Lo := vd'.com.ePad1Lo, eComp2Hi := vd'.com.eComp2Hi,
                              ePad2Hi := vd'.com.ePad2Hi, eComp2Lo := vd'.com.eComp2Lo,
                              ePad2Lo := vd'.com.ePad2Lo } ∧
      pd'.rnd = { pd.rnd with pt2 := fresh.pt2, r := fresh.r, rComp := fresh.rComp, rPad := fresh.rPad,
                              eComp1Hi := fresh.eComp1Hi, ePad1Hi := fresh.ePad1Hi,
                              eComp1Lo := fresh.eComp1Lo, ePad1Lo := fresh.ePad1Lo,
                              eComp2Hi := fresh.eComp2Hi, ePad2Hi := fresh.ePad2Hi,
                              eComp2Lo := fresh.eComp2Lo, ePad2Lo := fresh.ePad2Lo } ∧
      vd'.mer = C.st ∧ vd'.z = vd.z := by
  have hL := lay_of S.layout
  have hGs := S.gs
  have hHs := S.hs
  have hlin := S.lin
  unfold proveEncryption at h
  simp only at h
  obtain ⟨pt2Com, a1, h1⟩ := Res.bind_eq_ok.1 h
  obtain ⟨rCom, a2, h2⟩ := Res.bind_eq_ok.1 h1
  obtain ⟨⟨R1, m1⟩, a3, h3⟩ := Res.bind_eq_ok.1 h2
  obtain ⟨⟨R2, m2⟩, a4, h4⟩ := Res.bind_eq_ok.1 h3
  obtain ⟨⟨R3, m3⟩, a5, h5⟩ := Res.bind_eq_ok.1 h4
  obtain ⟨w1, a6, h6a⟩ := Res.bind_eq_ok.1 h5
  obtain ⟨w2, a7, h7⟩ := Res.bind_eq_ok.1 h6a
  obtain ⟨w3, a8, h8⟩ := Res.bind_eq_ok.1 h7
  obtain ⟨⟨cHi1, cLo1⟩, a9, h9⟩ := Res.bind_eq_ok.1 h8
  obtain ⟨⟨cHi2, cLo2⟩, a10, h10⟩ := Res.bind_eq_ok.1 h9
  obtain ⟨r, a11, h11⟩ := Res.bind_eq_ok.1 h10
  obtain ⟨hi1, a12, h12⟩ := Res.bind_eq_ok.1 h11
  obtain ⟨lo1, a13, h13⟩ := Res.bind_eq_ok.1 h12
  obtain ⟨hi2, a14, h14⟩ := Res.bind_eq_ok.1 h13
  obtain ⟨lo2, a15, h15⟩ := Res.bind_eq_ok.1 h14
  obtain ⟨gR, a16, h16⟩ := Res.bind_eq_ok.1 h15
  obtain ⟨gHi1, a17, h17⟩ := Res.bind_eq_ok.1 h16
  obtain ⟨gLo1, a18, h18⟩ := Res.bind_eq_ok.1 h17
  obtain ⟨gHi2, a19, h19⟩ := Res.bind_eq_ok.1 h18
  obtain ⟨gLo2, a20, h20⟩ := Res.bind_eq_ok.1 h19
  clear h h1 h2 h3 h4 h5 h6a h7 h8 h9 h10 h11 h12 h13 h14 h15 h16 h17 h18 h19
  obtain ⟨hm1, hR1⟩ := newTernaryE_ok hE (by decide) hP.kay a3
  obtain ⟨hm2, hR2⟩ := newTernaryE_ok hE (by decide) hP.enn a4
  obtain ⟨hm3, hR3⟩ := newTernaryE_ok hE (by decide) hP.kay a5
  subst hm1
  subst hm2
  subst hm3
  -- the linear constraints
  obtain ⟨c1, b1, b2, b3⟩ := onSlot_spec (cs := vd.linConstr) (s := 2) (by omega)
    (resetSlot_spec (vd.linConstr.drop 2) (by simp; omega))
  have l1 := b3.1
  obtain ⟨c2, b4, b5, b6⟩ := onSlot_spec (cs := c1) (s := 4) (by omega)
    (resetSlot_spec (c1.drop 4) (by simp; omega))
  have l2 := b6.1
  rw [b1, Res.ok_bind, b4, Res.ok_bind, newElement_eq hE, Res.ok_bind] at h20
  simp only at h20
  rw [power128, Res.ok_bind] at h20
  obtain ⟨c3, a21, h21⟩ := Res.bind_eq_ok.1 h20
  rw [newElement_eq hE, Res.ok_bind] at h21
  simp only at h21
  rw [power128, Res.ok_bind] at h21
  obtain ⟨c4, a22, h22⟩ := Res.bind_eq_ok.1 h21
  rw [newElement_eq hE, Res.ok_bind] at h22
  simp only at h22
  rw [power128, Res.ok_bind] at h22
  obtain ⟨c5, a23, h23⟩ := Res.bind_eq_ok.1 h22
  clear h20 h21 h22
  obtain ⟨o3, d1, d2, d3⟩ := onSlot_says (cs := c2) (s := 2) (by omega)
    (encConstraints1_spec P (w := vd.ix.w) rfl hR1 _ hP.A hc1
      (by rw [hL.eComp1Lo, hL.w]; omega) (by rw [hL.eComp1Hi, hL.w]; omega) (by rw [hL.r, hL.w]; omega)
      (fun k hk => hk.elim) (b2.other b6 (by omega)))
  rw [d1] at a21
  obtain rfl := Res.ok.inj a21
  have l3 := d3.1
  obtain ⟨o4, d4, d5, d6⟩ := onSlot_says (cs := o3) (s := 4) (by omega)
    (encConstraints2_spec P (w := vd.ix.w) rfl hR2 _ hP.B hc2
      (by rw [hL.eComp2Lo, hL.w]; omega) (by rw [hL.eComp2Hi, hL.w]; omega) (by rw [hL.r, hL.w]; omega)
      (by rw [hL.pt2, hL.w]; omega)
      (fun k hk => hk.elim) (b5.other d3 (by omega)))
  rw [d4] at a22
  obtain rfl := Res.ok.inj a22
  have l4 := d6.1
  have p6 := (((slot_pair (by omega) h6).other b3 (by omega)).other b6 (by omega)).other d3 (by omega) |>.other d6
    (by omega)
  obtain ⟨o5, d7, d8, d9⟩ := onSlot_says (cs := o4) (s := 6) (by omega)
    (encConstraints3_spec (w := vd.ix.w) hR3 _
      (by rw [hL.rComp, hL.w]; omega) (by rw [hL.r, hL.w]; omega)
      (fun k hk => hk) p6)
  rw [d7] at a23
  obtain rfl := Res.ok.inj a23
  -- the vectors
  obtain ⟨v1, e1, e2, e3⟩ := hR1.right noise1 hn1
  rw [e1] at a6
  obtain rfl := Res.ok.inj a6
  obtain ⟨v2, e4, e5, e6⟩ := hR2.right noise2 hn2
  rw [e4] at a7
  obtain rfl := Res.ok.inj a7
  obtain ⟨v3, e7, e8, e9⟩ := hR3.right rnd hr
  rw [e7] at a8
  obtain rfl := Res.ok.inj a8
  have e2' : v1.length = 128 := e2
  have e5' : v2.length = 128 := e5
  have e8' : v3.length = 128 := e8
  obtain ⟨g1, g2, g3⟩ := digits_eq hP.radix a9
  obtain ⟨g4, g5, g6⟩ := digits_eq hP.radix a10
  have hne : ∀ v : EVec q 2, v.length = 128 → v ≠ [] := fun v hv he => by rw [he] at hv; simp at hv
  obtain ⟨k1, k2, k3⟩ := padTo_ok (hT 2) (hne v3 (by omega)) (hP.small 2 (by norm_num)).1 a11
  obtain ⟨k4, k5, k6⟩ := padTo_ok (hT 3) (hne cHi1 (by omega)) (hP.small 3 (by norm_num)).1 a12
  obtain ⟨k7, k8, k9⟩ := padTo_ok (hT 4) (hne cLo1 (by omega)) (hP.small 4 (by norm_num)).1 a13
  obtain ⟨k10, k11, k12⟩ := padTo_ok (hT 5) (hne cHi2 (by omega)) (hP.small 5 (by norm_num)).1 a14
  obtain ⟨k13, k14, k15⟩ := padTo_ok (hT 6) (hne cLo2 (by omega)) (hP.small 6 (by norm_num)).1 a15
  subst k1
  subst k4
  subst k7
  subst k10
  subst k13
  have q1 : r.comp.length = 128 := by omega
  have q2 : hi1.comp.length = 128 := by omega
  have q3 : lo1.comp.length = 128 := by omega
  have q4 : hi2.comp.length = 128 := by omega
  have q5 : lo2.comp.length = 128 := by omega
  have hN : NormInv vd.normConstr := ⟨S.normLength, S.norm⟩
  rw [hL.rComp, hL.rPad, hL.eComp1Hi, hL.ePad1Hi, hL.eComp1Lo, hL.ePad1Lo, hL.eComp2Hi, hL.ePad2Hi,
    hL.eComp2Lo, hL.ePad2Lo] at h23
  rw [setNorm_eq hN (by norm_num), Res.ok_bind, setNorm_eq (hN.set 2 _) (by norm_num), Res.ok_bind,
    setNorm_eq ((hN.set 2 _).set 3 _) (by norm_num), Res.ok_bind,
    setNorm_eq (((hN.set 2 _).set 3 _).set 4 _) (by norm_num), Res.ok_bind,
    setNorm_eq ((((hN.set 2 _).set 3 _).set 4 _).set 5 _) (by norm_num), Res.ok_bind] at h23
  obtain ⟨z1, y1, y2, y3⟩ := copyPair_spec S.compressed (k := 2) (by norm_num) q1 k2
  obtain ⟨z2, y4, y5, y6⟩ := copyPair_spec y2 (k := 3) (by norm_num) q2 k5
  obtain ⟨z3, y7, y8, y9⟩ := copyPair_spec y5 (k := 4) (by norm_num) q3 k8
  obtain ⟨z4, y10, y11, y12⟩ := copyPair_spec y8 (k := 5) (by norm_num) q4 k11
  obtain ⟨z5, y13, y14, y15⟩ := copyPair_spec y11 (k := 6) (by norm_num) q5 k14
  rw [y1, Res.ok_bind, y4, Res.ok_bind, y7, Res.ok_bind, y10, Res.ok_bind, y13, Res.ok_bind] at h23
  obtain ⟨rfl, rfl⟩ := Prod.mk.inj (Res.ok.inj h23)
  refine ⟨r, hi1, lo1, hi2, lo2, _, rfl,
    ⟨rfl, rfl, rfl, ?_, ?_, rfl, y14, ⟨z1, y3, z2, y6, z3, y9, z4, y12, z5, y15, rfl⟩, ?_, by simp, ?_, ?_, ?_⟩,
    ?_, ?_, ?_, ?_, ?_, ?_, ?_, rfl, rfl, rfl, rfl⟩
  · rw [d9.1, l4, l3, l2, l1]
  · intro i hi
    have i1 := hi 2 (by simp)
    have i2 := hi 4 (by simp)
    have i3 := hi 6 (by simp)
    dsimp only
    rw [d9.2 i i3.1 i3.2, d6.2 i i2.1 i2.2, d3.2 i i1.1 i1.2, b6.2 i i2.1 i2.2, b3.2 i i1.1 i1.2]
  · intro p hp
    simp only [List.mem_cons, List.not_mem_nil, or_false] at hp
    rcases hp with rfl | rfl | rfl | rfl | rfl
    · exact ⟨by norm_num, q1, k2, k3⟩
    · exact ⟨by norm_num, q2, k5, k6⟩
    · exact ⟨by norm_num, q3, k8, k9⟩
    · exact ⟨by norm_num, q4, k11, k12⟩
    · exact ⟨by norm_num, q5, k14, k15⟩
  · dsimp only
    rw [putPair_eq, putPair_eq, putPair_eq, putPair_eq, putPair_eq, addE_eq]
    rfl
  · dsimp only
    rw [putPair_eq, putPair_eq, putPair_eq, putPair_eq, putPair_eq]
    rfl
  · intro p hp
    exact List.mem_append_left _ hp
  · intro j hj
    rw [g3 j (by omega), e3 j hj]
    rfl
  · intro j hj
    rw [g6 j (by omega), e6 j hj]
    rfl
  · intro j hj
    rw [e9 j hj]
    rfl
  · have := (d2.other d6 (by omega)).other d9 (by omega)
    simp only [zero_add] at this
    exact this
  · have := d5.other d9 (by omega)
    simp only [zero_add] at this
    exact this
  · refine d8.congr fun x => congrArg (slotLhs vd.linConstr 6 x + ·) ?_
    rfl
  · intro x hx
    simp only [pairWrites, List.flatMap_cons, List.flatMap_nil, List.cons_append, List.nil_append,
      List.append_nil, List.forall_mem_cons] at hx
    obtain ⟨x1, x2, x3, x4, x5, x6, x7, x8, x9, x10, x11, x12, -⟩ := hx
    have hG : 2600 ≤ vd.Gs.length := by rw [hL.w] at hGs; omega
    rw [hL.rComp, hL.rPad] at a16
    rw [hL.eComp1Hi, hL.ePad1Hi] at a17
    rw [hL.eComp1Lo, hL.ePad1Lo] at a18
    rw [hL.eComp2Hi, hL.ePad2Hi] at a19
    rw [hL.eComp2Lo, hL.ePad2Lo] at a20
    have o1 := commitPair_opens (by norm_num) q1 k2 hG hHs a16 x1 x2
    have o2 := commitPair_opens (by norm_num) q2 k5 hG hHs a17 x3 x4
    have o3 := commitPair_opens (by norm_num) q3 k8 hG hHs a18 x5 x6
    have o4 := commitPair_opens (by norm_num) q4 k11 hG hHs a19 x7 x8
    have o5 := commitPair_opens (by norm_num) q5 k14 hG hHs a20 x9 x10
    have o6 := commitE_opens (by rw [hr, hL.r]; rw [hL.w] at hGs; omega) a2 x x11
    have o7 := commitS_opens (by rw [hpt, hL.pt2]; rw [hL.w] at hGs; omega) a1 x x12
    rw [hpt] at o7
    rw [hr] at o6
    simp only [hL.rComp, hL.rPad, hL.eComp1Hi, hL.ePad1Hi, hL.eComp1Lo, hL.ePad1Lo, hL.eComp2Hi, hL.ePad2Hi,
      hL.eComp2Lo, hL.ePad2Lo]
    exact ⟨o1.1, o1.2, o2.1, o2.2, o3.1, o3.2, o4.1, o4.2, o5.1, o5.2, o6, o7⟩

end
end Verif
