/-
Runs of a round up to the smallness proof: they succeed for every randomness when the secrets fit, and two of
them with the same public statement and the same commitments leave the same public state.
-/
import Verif.Lemmas.RoundHiding
import Verif.Spec.Hiding
import Verif.Props.Round

namespace Verif.Props
open Spec Regev

section
variable {q : ℕ} [Fact q.Prime] {G : Type} [AddCommGroup G] [Module (ZMod q) G]

/-- Recording succeeds for every randomness when the secrets fit. -/
theorem record_total {E : Env (ZMod q) G} (hE : LengthOk E) {P : Params q} (hP : ParamsOk P)
    {tests : ℕ → Tests} (hT : ∀ k, NoFalsePrimes (tests k).probPrime) (fresh : Blocks (ZMod q))
    {inp : RoundInput q} (hI : Honest P inp) (hF : FitsAlways P inp)
    {vd : VerifierData (ZMod q) G E.St} {pd : ProverData (ZMod q)} (S : Start E P inp.sk1 vd pd)
    (h4 : 4 ∣ P.gk.kay ∧ 4 ∣ P.gk.enn) (hH : ∀ row ∈ P.H, row.length = 1 + P.gk.enn)
    (hl : 14 + P.H.length ≤ vd.linConstr.length) :
    ∃ r, recordRound E P fresh tests inp vd pd = .ok r := by
  unfold recordRound
  have S0 := S.setup
  obtain ⟨⟨vd1, pd1⟩, h1⟩ := C43_decryption_small hE hP hT (fresh := fresh) S0 hI.ctMat hI.ctVec hI.pt1
    hI.decNoise (skey := inp.sk1) hF.decNoise
  obtain ⟨L1, W1, s1, -⟩ :=
    dec_core hE hP hT S0 hI.ctMat hI.ctVec hI.pt1 hI.sk1 hI.decNoise hI.decrypts h1
  have S1 := s1.setup S0
  have e6 : vd1.linConstr[6]? = vd.linConstr[6]? := s1.linRest 6 (by simp)
  have e7 : vd1.linConstr[7]? = vd.linConstr[7]? := s1.linRest 7 (by simp)
  have h6 : ∀ j : Fin 2, vd1.linConstr.getD (6 + j.val) ⟨[], 0⟩ = ⟨[], 0⟩ := by
    intro j
    have e : vd1.linConstr.getD (6 + j.val) ⟨[], 0⟩ = vd.linConstr.getD (6 + j.val) ⟨[], 0⟩ := by
      rw [List.getD_eq_getElem?_getD, List.getD_eq_getElem?_getD]
      have : j.val = 0 ∨ j.val = 1 := by omega
      rcases this with e | e <;> rw [e]
      · rw [Nat.add_zero, e6]
      · rw [e7]
    rw [e, slot_empty S.linEmpty]
  have h6a : SlotOk vd1.linConstr 6 vd1.ix.w := by
    intro i
    rw [h6]
    exact ⟨List.Pairwise.nil, fun j hj => absurd hj List.not_mem_nil⟩
  have h6b : ∀ x, slotLhs vd1.linConstr 6 x = 0 := by
    intro x
    unfold slotLhs
    apply Elt.ext
    funext i
    simp only [h6]
    simp [linLhs]
  obtain ⟨⟨vd2, pd2⟩, h2⟩ := C43_encryption_small hE hP hT (fresh := fresh) S1 h6a hI.ct1 hI.ct2 hI.pt2
    hI.encRnd hI.encNoise1 hI.encNoise2 h4 hF.encRnd hF.encNoise1 hF.encNoise2
  obtain ⟨L2, W2, s2, -⟩ := enc_core hE hP hT S1 h6a h6b hI.ct1 hI.ct2 hI.pt2 hI.encRnd hI.encNoise1
    hI.encNoise2 hI.encrypts1 hI.encrypts2 h2
  have S2 := s2.setup S1
  obtain ⟨⟨vd3, pd3⟩, h3⟩ := C43_keygen_small hE hP hT (fresh := fresh) S2 hI.sk2 hI.keyNoise hF.pkNum hF.sk2
    hF.keyNoise
  obtain ⟨L3, W3, s3, -⟩ := key_core hE hP hT S2 hI.sk2 hI.keyNoise hI.keyFor h3
  obtain ⟨lin, h5, -⟩ := (C43_reshare_meaning (P := P) (vd := vd3) (pd := pd3) (lagrange := inp.lagrange)
    (pt1 := inp.pt1) (pt2 := inp.pt2)).1 ⟨hI.pt1, hF.lagrange, hI.pt2, hH, by
      rw [s3.linLength, s2.linLength, s1.linLength]; exact hl⟩
  rw [h1, Res.ok_bind]
  simp only
  rw [h2, Res.ok_bind]
  simp only
  rw [h3, Res.ok_bind]
  exact ⟨_, h5⟩

/-- Two runs with the same public statement and the same commitments. -/
theorem record_two {E : Env (ZMod q) G} (hB : Function.Injective (fun s : ZMod q => s • E.base)) {P : Params q}
    {tests tests' : ℕ → Tests} {fresh fresh' : Blocks (ZMod q)} {inp inp' : RoundInput q}
    (hS : SamePublic inp inp') {vd v1 v2 : VerifierData (ZMod q) G E.St} {pd pd' p1 p2 : ProverData (ZMod q)}
    (h : recordRound E P fresh tests inp vd pd = .ok (v1, p1))
    (h' : recordRound E P fresh' tests' inp' vd pd' = .ok (v2, p2)) (hc : Same24 v1.com v2.com) :
    v1 = v2 ∧ (tests = tests' → inp = inp' → Same24 fresh fresh') := by
  unfold recordRound at h h'
  rw [← hS.ctMat, ← hS.ctVec, ← hS.ct1, ← hS.ct2, ← hS.pkNum, ← hS.lagrange] at h'
  obtain ⟨⟨va, pa⟩, a1, h⟩ := Res.bind_eq_ok.1 h
  obtain ⟨⟨vb, pb⟩, a2, h⟩ := Res.bind_eq_ok.1 h
  obtain ⟨⟨vc, pc⟩, a3, h⟩ := Res.bind_eq_ok.1 h
  obtain ⟨⟨wa, ra⟩, b1, h'⟩ := Res.bind_eq_ok.1 h'
  obtain ⟨⟨wb, rb⟩, b2, h'⟩ := Res.bind_eq_ok.1 h'
  obtain ⟨⟨wc, rc⟩, b3, h'⟩ := Res.bind_eq_ok.1 h'
  have c1 := reShare_com h
  have c2 := key_com a3
  have c3 := enc_com a2
  have d1 := reShare_com h'
  have d2 := key_com b3
  have d3 := enc_com b2
  have ept1 : va.com.pt1 = wa.com.pt1 := calc
    va.com.pt1 = vb.com.pt1 := by have x := congrArg Blocks.pt1 c3; exact x.symm
    _ = vc.com.pt1 := by have x := congrArg Blocks.pt1 c2; exact x.symm
    _ = v1.com.pt1 := by have x := congrArg Blocks.pt1 c1; exact x.symm
    _ = v2.com.pt1 := by have x := congrArg Blocks.pt1 hc; exact x
    _ = wc.com.pt1 := by have x := congrArg Blocks.pt1 d1; exact x
    _ = wb.com.pt1 := by have x := congrArg Blocks.pt1 d2; exact x
    _ = wa.com.pt1 := by have x := congrArg Blocks.pt1 d3; exact x
  have edCompHi : va.com.dCompHi = wa.com.dCompHi := calc
    va.com.dCompHi = vb.com.dCompHi := by have x := congrArg Blocks.dCompHi c3; exact x.symm
    _ = vc.com.dCompHi := by have x := congrArg Blocks.dCompHi c2; exact x.symm
    _ = v1.com.dCompHi := by have x := congrArg Blocks.dCompHi c1; exact x.symm
    _ = v2.com.dCompHi := by have x := congrArg Blocks.dCompHi hc; exact x
    _ = wc.com.dCompHi := by have x := congrArg Blocks.dCompHi d1; exact x
    _ = wb.com.dCompHi := by have x := congrArg Blocks.dCompHi d2; exact x
    _ = wa.com.dCompHi := by have x := congrArg Blocks.dCompHi d3; exact x
  have edPadHi : va.com.dPadHi = wa.com.dPadHi := calc
    va.com.dPadHi = vb.com.dPadHi := by have x := congrArg Blocks.dPadHi c3; exact x.symm
    _ = vc.com.dPadHi := by have x := congrArg Blocks.dPadHi c2; exact x.symm
    _ = v1.com.dPadHi := by have x := congrArg Blocks.dPadHi c1; exact x.symm
    _ = v2.com.dPadHi := by have x := congrArg Blocks.dPadHi hc; exact x
    _ = wc.com.dPadHi := by have x := congrArg Blocks.dPadHi d1; exact x
    _ = wb.com.dPadHi := by have x := congrArg Blocks.dPadHi d2; exact x
    _ = wa.com.dPadHi := by have x := congrArg Blocks.dPadHi d3; exact x
  have edCompLo : va.com.dCompLo = wa.com.dCompLo := calc
    va.com.dCompLo = vb.com.dCompLo := by have x := congrArg Blocks.dCompLo c3; exact x.symm
    _ = vc.com.dCompLo := by have x := congrArg Blocks.dCompLo c2; exact x.symm
    _ = v1.com.dCompLo := by have x := congrArg Blocks.dCompLo c1; exact x.symm
    _ = v2.com.dCompLo := by have x := congrArg Blocks.dCompLo hc; exact x
    _ = wc.com.dCompLo := by have x := congrArg Blocks.dCompLo d1; exact x
    _ = wb.com.dCompLo := by have x := congrArg Blocks.dCompLo d2; exact x
    _ = wa.com.dCompLo := by have x := congrArg Blocks.dCompLo d3; exact x
  have edPadLo : va.com.dPadLo = wa.com.dPadLo := calc
    va.com.dPadLo = vb.com.dPadLo := by have x := congrArg Blocks.dPadLo c3; exact x.symm
    _ = vc.com.dPadLo := by have x := congrArg Blocks.dPadLo c2; exact x.symm
    _ = v1.com.dPadLo := by have x := congrArg Blocks.dPadLo c1; exact x.symm
    _ = v2.com.dPadLo := by have x := congrArg Blocks.dPadLo hc; exact x
    _ = wc.com.dPadLo := by have x := congrArg Blocks.dPadLo d1; exact x
    _ = wb.com.dPadLo := by have x := congrArg Blocks.dPadLo d2; exact x
    _ = wa.com.dPadLo := by have x := congrArg Blocks.dPadLo d3; exact x
  obtain ⟨rfl, f1⟩ := dec_two hB a1 b1 ept1 edCompHi edPadHi edCompLo edPadLo
  have ept2 : vb.com.pt2 = wb.com.pt2 := calc
    vb.com.pt2 = vc.com.pt2 := by have x := congrArg Blocks.pt2 c2; exact x.symm
    _ = v1.com.pt2 := by have x := congrArg Blocks.pt2 c1; exact x.symm
    _ = v2.com.pt2 := by have x := congrArg Blocks.pt2 hc; exact x
    _ = wc.com.pt2 := by have x := congrArg Blocks.pt2 d1; exact x
    _ = wb.com.pt2 := by have x := congrArg Blocks.pt2 d2; exact x
  have er : vb.com.r = wb.com.r := calc
    vb.com.r = vc.com.r := by have x := congrArg Blocks.r c2; exact x.symm
    _ = v1.com.r := by have x := congrArg Blocks.r c1; exact x.symm
    _ = v2.com.r := by have x := congrArg Blocks.r hc; exact x
    _ = wc.com.r := by have x := congrArg Blocks.r d1; exact x
    _ = wb.com.r := by have x := congrArg Blocks.r d2; exact x
  have erComp : vb.com.rComp = wb.com.rComp := calc
    vb.com.rComp = vc.com.rComp := by have x := congrArg Blocks.rComp c2; exact x.symm
    _ = v1.com.rComp := by have x := congrArg Blocks.rComp c1; exact x.symm
    _ = v2.com.rComp := by have x := congrArg Blocks.rComp hc; exact x
    _ = wc.com.rComp := by have x := congrArg Blocks.rComp d1; exact x
    _ = wb.com.rComp := by have x := congrArg Blocks.rComp d2; exact x
  have erPad : vb.com.rPad = wb.com.rPad := calc
    vb.com.rPad = vc.com.rPad := by have x := congrArg Blocks.rPad c2; exact x.symm
    _ = v1.com.rPad := by have x := congrArg Blocks.rPad c1; exact x.symm
    _ = v2.com.rPad := by have x := congrArg Blocks.rPad hc; exact x
    _ = wc.com.rPad := by have x := congrArg Blocks.rPad d1; exact x
    _ = wb.com.rPad := by have x := congrArg Blocks.rPad d2; exact x
  have eeComp1Hi : vb.com.eComp1Hi = wb.com.eComp1Hi := calc
    vb.com.eComp1Hi = vc.com.eComp1Hi := by have x := congrArg Blocks.eComp1Hi c2; exact x.symm
    _ = v1.com.eComp1Hi := by have x := congrArg Blocks.eComp1Hi c1; exact x.symm
    _ = v2.com.eComp1Hi := by have x := congrArg Blocks.eComp1Hi hc; exact x
    _ = wc.com.eComp1Hi := by have x := congrArg Blocks.eComp1Hi d1; exact x
    _ = wb.com.eComp1Hi := by have x := congrArg Blocks.eComp1Hi d2; exact x
  have eePad1Hi : vb.com.ePad1Hi = wb.com.ePad1Hi := calc
    vb.com.ePad1Hi = vc.com.ePad1Hi := by have x := congrArg Blocks.ePad1Hi c2; exact x.symm
    _ = v1.com.ePad1Hi := by have x := congrArg Blocks.ePad1Hi c1; exact x.symm
    _ = v2.com.ePad1Hi := by have x := congrArg Blocks.ePad1Hi hc; exact x
    _ = wc.com.ePad1Hi := by have x := congrArg Blocks.ePad1Hi d1; exact x
    _ = wb.com.ePad1Hi := by have x := congrArg Blocks.ePad1Hi d2; exact x
  have eeComp1Lo : vb.com.eComp1Lo = wb.com.eComp1Lo := calc
    vb.com.eComp1Lo = vc.com.eComp1Lo := by have x := congrArg Blocks.eComp1Lo c2; exact x.symm
    _ = v1.com.eComp1Lo := by have x := congrArg Blocks.eComp1Lo c1; exact x.symm
    _ = v2.com.eComp1Lo := by have x := congrArg Blocks.eComp1Lo hc; exact x
    _ = wc.com.eComp1Lo := by have x := congrArg Blocks.eComp1Lo d1; exact x
    _ = wb.com.eComp1Lo := by have x := congrArg Blocks.eComp1Lo d2; exact x
  have eePad1Lo : vb.com.ePad1Lo = wb.com.ePad1Lo := calc
    vb.com.ePad1Lo = vc.com.ePad1Lo := by have x := congrArg Blocks.ePad1Lo c2; exact x.symm
    _ = v1.com.ePad1Lo := by have x := congrArg Blocks.ePad1Lo c1; exact x.symm
    _ = v2.com.ePad1Lo := by have x := congrArg Blocks.ePad1Lo hc; exact x
    _ = wc.com.ePad1Lo := by have x := congrArg Blocks.ePad1Lo d1; exact x
    _ = wb.com.ePad1Lo := by have x := congrArg Blocks.ePad1Lo d2; exact x
  have eeComp2Hi : vb.com.eComp2Hi = wb.com.eComp2Hi := calc
    vb.com.eComp2Hi = vc.com.eComp2Hi := by have x := congrArg Blocks.eComp2Hi c2; exact x.symm
    _ = v1.com.eComp2Hi := by have x := congrArg Blocks.eComp2Hi c1; exact x.symm
    _ = v2.com.eComp2Hi := by have x := congrArg Blocks.eComp2Hi hc; exact x
    _ = wc.com.eComp2Hi := by have x := congrArg Blocks.eComp2Hi d1; exact x
    _ = wb.com.eComp2Hi := by have x := congrArg Blocks.eComp2Hi d2; exact x
  have eePad2Hi : vb.com.ePad2Hi = wb.com.ePad2Hi := calc
    vb.com.ePad2Hi = vc.com.ePad2Hi := by have x := congrArg Blocks.ePad2Hi c2; exact x.symm
    _ = v1.com.ePad2Hi := by have x := congrArg Blocks.ePad2Hi c1; exact x.symm
    _ = v2.com.ePad2Hi := by have x := congrArg Blocks.ePad2Hi hc; exact x
    _ = wc.com.ePad2Hi := by have x := congrArg Blocks.ePad2Hi d1; exact x
    _ = wb.com.ePad2Hi := by have x := congrArg Blocks.ePad2Hi d2; exact x
  have eeComp2Lo : vb.com.eComp2Lo = wb.com.eComp2Lo := calc
    vb.com.eComp2Lo = vc.com.eComp2Lo := by have x := congrArg Blocks.eComp2Lo c2; exact x.symm
    _ = v1.com.eComp2Lo := by have x := congrArg Blocks.eComp2Lo c1; exact x.symm
    _ = v2.com.eComp2Lo := by have x := congrArg Blocks.eComp2Lo hc; exact x
    _ = wc.com.eComp2Lo := by have x := congrArg Blocks.eComp2Lo d1; exact x
    _ = wb.com.eComp2Lo := by have x := congrArg Blocks.eComp2Lo d2; exact x
  have eePad2Lo : vb.com.ePad2Lo = wb.com.ePad2Lo := calc
    vb.com.ePad2Lo = vc.com.ePad2Lo := by have x := congrArg Blocks.ePad2Lo c2; exact x.symm
    _ = v1.com.ePad2Lo := by have x := congrArg Blocks.ePad2Lo c1; exact x.symm
    _ = v2.com.ePad2Lo := by have x := congrArg Blocks.ePad2Lo hc; exact x
    _ = wc.com.ePad2Lo := by have x := congrArg Blocks.ePad2Lo d1; exact x
    _ = wb.com.ePad2Lo := by have x := congrArg Blocks.ePad2Lo d2; exact x
  obtain ⟨rfl, f2⟩ := enc_two hB a2 b2 ept2 er erComp erPad eeComp1Hi eePad1Hi eeComp1Lo eePad1Lo eeComp2Hi
    eePad2Hi eeComp2Lo eePad2Lo
  have esk2 : vc.com.sk2 = wc.com.sk2 := calc
    vc.com.sk2 = v1.com.sk2 := by have x := congrArg Blocks.sk2 c1; exact x.symm
    _ = v2.com.sk2 := by have x := congrArg Blocks.sk2 hc; exact x
    _ = wc.com.sk2 := by have x := congrArg Blocks.sk2 d1; exact x
  have esk2Comp : vc.com.sk2Comp = wc.com.sk2Comp := calc
    vc.com.sk2Comp = v1.com.sk2Comp := by have x := congrArg Blocks.sk2Comp c1; exact x.symm
    _ = v2.com.sk2Comp := by have x := congrArg Blocks.sk2Comp hc; exact x
    _ = wc.com.sk2Comp := by have x := congrArg Blocks.sk2Comp d1; exact x
  have esk2Pad : vc.com.sk2Pad = wc.com.sk2Pad := calc
    vc.com.sk2Pad = v1.com.sk2Pad := by have x := congrArg Blocks.sk2Pad c1; exact x.symm
    _ = v2.com.sk2Pad := by have x := congrArg Blocks.sk2Pad hc; exact x
    _ = wc.com.sk2Pad := by have x := congrArg Blocks.sk2Pad d1; exact x
  have ekCompHi : vc.com.kCompHi = wc.com.kCompHi := calc
    vc.com.kCompHi = v1.com.kCompHi := by have x := congrArg Blocks.kCompHi c1; exact x.symm
    _ = v2.com.kCompHi := by have x := congrArg Blocks.kCompHi hc; exact x
    _ = wc.com.kCompHi := by have x := congrArg Blocks.kCompHi d1; exact x
  have ekPadHi : vc.com.kPadHi = wc.com.kPadHi := calc
    vc.com.kPadHi = v1.com.kPadHi := by have x := congrArg Blocks.kPadHi c1; exact x.symm
    _ = v2.com.kPadHi := by have x := congrArg Blocks.kPadHi hc; exact x
    _ = wc.com.kPadHi := by have x := congrArg Blocks.kPadHi d1; exact x
  have ekCompLo : vc.com.kCompLo = wc.com.kCompLo := calc
    vc.com.kCompLo = v1.com.kCompLo := by have x := congrArg Blocks.kCompLo c1; exact x.symm
    _ = v2.com.kCompLo := by have x := congrArg Blocks.kCompLo hc; exact x
    _ = wc.com.kCompLo := by have x := congrArg Blocks.kCompLo d1; exact x
  have ekPadLo : vc.com.kPadLo = wc.com.kPadLo := calc
    vc.com.kPadLo = v1.com.kPadLo := by have x := congrArg Blocks.kPadLo c1; exact x.symm
    _ = v2.com.kPadLo := by have x := congrArg Blocks.kPadLo hc; exact x
    _ = wc.com.kPadLo := by have x := congrArg Blocks.kPadLo d1; exact x
  obtain ⟨rfl, f3⟩ := key_two hB a3 b3 esk2 esk2Comp esk2Pad ekCompHi ekPadHi ekCompLo ekPadLo
  refine ⟨reShare_two h h', ?_⟩
  rintro rfl rfl
  obtain ⟨ipt1, idCompHi, idPadHi, idCompLo, idPadLo⟩ := f1 rfl rfl rfl
  obtain ⟨ipt2, ir, irComp, irPad, ieComp1Hi, iePad1Hi, ieComp1Lo, iePad1Lo, ieComp2Hi, iePad2Hi, ieComp2Lo,
    iePad2Lo⟩ := f2 rfl rfl rfl rfl rfl
  obtain ⟨isk2, isk2Comp, isk2Pad, ikCompHi, ikPadHi, ikCompLo, ikPadLo⟩ := f3 rfl rfl rfl
  unfold Same24
  rw [← ipt1, ← idCompHi, ← idPadHi, ← idCompLo, ← idPadLo, ← ipt2, ← ir, ← irComp, ← irPad, ← ieComp1Hi,
    ← iePad1Hi, ← ieComp1Lo, ← iePad1Lo, ← ieComp2Hi, ← iePad2Hi, ← ieComp2Lo, ← iePad2Lo, ← isk2,
    ← isk2Comp, ← isk2Pad, ← ikCompHi, ← ikPadHi, ← ikCompLo, ← ikPadLo]

end
end Verif.Props
