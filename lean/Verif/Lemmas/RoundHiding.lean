/-
Two runs of the functions that record the constraints of a round: what they publish is determined by the
commitments, and the commitments determine the randomness.
-/
import Verif.Lemmas.RegevTotal
import Verif.Model.Driver

namespace Verif
open Spec Regev

section
variable {q : ℕ} [Fact q.Prime] {G : Type} [AddCommGroup G] [Module (ZMod q) G]

theorem rnd_of_eq {base : G} (hB : Function.Injective (fun s : ZMod q => s • base)) {r r' : ZMod q} {a : G}
    (h : r • base + a = r' • base + a) : r = r' := hB (add_right_cancel h)

theorem commitS_inj {base : G} (hB : Function.Injective (fun s : ZMod q => s • base)) {v : List (ZMod q)} {off : ℕ}
    {Gs : List G} {r r' : ZMod q} {c : G} (h : commitS base v off Gs r = .ok c)
    (h' : commitS base v off Gs r' = .ok c) : r = r' := by
  by_cases hl : off + v.length ≤ Gs.length
  · rw [(Props.C56_scalars base v off Gs r).1 hl] at h
    rw [(Props.C56_scalars base v off Gs r').1 hl] at h'
    exact rnd_of_eq hB ((Res.ok.inj h).trans (Res.ok.inj h').symm)
  · rw [(Props.C56_scalars base v off Gs r).2 (by omega)] at h
    cases h

theorem commitE_inj {base : G} (hB : Function.Injective (fun s : ZMod q => s • base)) {v : EVec q 2} {off : ℕ}
    {Gs : List G} {r r' : ZMod q} {c : G} (h : commitE base v off Gs r = .ok c)
    (h' : commitE base v off Gs r' = .ok c) : r = r' := by
  have e : ∀ r, commitE base v off Gs r = commitE base v off Gs r 0 (some v.length) := fun _ => rfl
  rw [e] at h h'
  by_cases hl : off + 2 * (v.length - 0) ≤ Gs.length
  · rw [(Props.C56_elements base v off Gs r 0 v.length (by omega) le_rfl).1 hl] at h
    rw [(Props.C56_elements base v off Gs r' 0 v.length (by omega) le_rfl).1 hl] at h'
    exact rnd_of_eq hB ((Res.ok.inj h).trans (Res.ok.inj h').symm)
  · rw [(Props.C56_elements base v off Gs r 0 v.length (by omega) le_rfl).2 (by omega)] at h
    cases h

theorem commit2E_inj {base : G} (hB : Function.Injective (fun s : ZMod q => s • base)) {v : EVec q 2} {off : ℕ}
    {Gs Hs : List G} {r r' : ZMod q} {c : G} (h : commit2E base v off Gs Hs r = .ok c)
    (h' : commit2E base v off Gs Hs r' = .ok c) : r = r' := by
  have e : ∀ r, commit2E base v off Gs Hs r = commit2E base v off Gs Hs r 0 (some v.length) := fun _ => rfl
  rw [e] at h h'
  by_cases hl : off + 2 * (v.length - 0) ≤ Gs.length ∧ off + 2 * (v.length - 0) ≤ Hs.length
  · rw [(Props.C56_double base v off Gs Hs r 0 v.length (by omega) le_rfl).1 hl.1 hl.2] at h
    rw [(Props.C56_double base v off Gs Hs r' 0 v.length (by omega) le_rfl).1 hl.1 hl.2] at h'
    have := (Res.ok.inj h).trans (Res.ok.inj h').symm
    exact rnd_of_eq hB (add_right_cancel this)
  · rw [(Props.C56_double base v off Gs Hs r 0 v.length (by omega) le_rfl).2 (by omega)] at h
    cases h

theorem commitPair_inj {base : G} (hB : Function.Injective (fun s : ZMod q => s • base)) {Gs Hs : List G}
    {p : Padded q} {i j : ℕ} {r r' s s' : ZMod q} {c : G × G} (h : commitPair base Gs Hs p i j r s = .ok c)
    (h' : commitPair base Gs Hs p i j r' s' = .ok c) : r = r' ∧ s = s' := by
  unfold commitPair at h h'
  obtain ⟨c1, a1, h⟩ := Res.bind_eq_ok.1 h
  obtain ⟨d1, a2, h⟩ := Res.bind_eq_ok.1 h
  obtain ⟨c2, b1, h'⟩ := Res.bind_eq_ok.1 h'
  obtain ⟨d2, b2, h'⟩ := Res.bind_eq_ok.1 h'
  have e := (Res.ok.inj h).trans (Res.ok.inj h').symm
  obtain ⟨rfl, rfl⟩ := Prod.mk.inj e
  exact ⟨commit2E_inj hB a1 b1, commit2E_inj hB a2 b2⟩

theorem dec_two {E : Env (ZMod q) G} (hB : Function.Injective (fun s : ZMod q => s • E.base)) {P : Params q}
    {tests tests' : ℕ → Tests} {fresh fresh' : Blocks (ZMod q)}
    {vd v1 v2 : VerifierData (ZMod q) G E.St} {pd pd' p1 p2 : ProverData (ZMod q)}
    {ctMat : EMat q 2} {ctVec : EVec q 2} {ptxt ptxt' : List (ZMod q)} {skey noise skey' noise' : EVec q 2}
    (h : proveDecryption E P fresh tests vd pd ctMat ctVec ptxt skey noise = .ok (v1, p1))
    (h' : proveDecryption E P fresh' tests' vd pd' ctMat ctVec ptxt' skey' noise' = .ok (v2, p2))
    (e1 : v1.com.pt1 = v2.com.pt1) (e2 : v1.com.dCompHi = v2.com.dCompHi) (e3 : v1.com.dPadHi = v2.com.dPadHi)
    (e4 : v1.com.dCompLo = v2.com.dCompLo) (e5 : v1.com.dPadLo = v2.com.dPadLo) :
    v1 = v2 ∧ (tests = tests' → ptxt = ptxt' → noise = noise' → fresh.pt1 = fresh'.pt1 ∧
      fresh.dCompHi = fresh'.dCompHi ∧ fresh.dPadHi = fresh'.dPadHi ∧
      fresh.dCompLo = fresh'.dCompLo ∧ fresh.dPadLo = fresh'.dPadLo) := by
  unfold proveDecryption at h h'
  simp only at h h'
  obtain ⟨pt1Com, a1, h⟩ := Res.bind_eq_ok.1 h
  obtain ⟨⟨R, m1⟩, a2, h⟩ := Res.bind_eq_ok.1 h
  obtain ⟨comp, a3, h⟩ := Res.bind_eq_ok.1 h
  obtain ⟨⟨cHi, cLo⟩, a4, h⟩ := Res.bind_eq_ok.1 h
  obtain ⟨hi, a5, h⟩ := Res.bind_eq_ok.1 h
  obtain ⟨lo, a6, h⟩ := Res.bind_eq_ok.1 h
  obtain ⟨dHi, a7, h⟩ := Res.bind_eq_ok.1 h
  obtain ⟨dLo, a8, h⟩ := Res.bind_eq_ok.1 h
  obtain ⟨⟨x, m2⟩, a9, h⟩ := Res.bind_eq_ok.1 h
  obtain ⟨xv, a10, h⟩ := Res.bind_eq_ok.1 h
  obtain ⟨lin, a11, h⟩ := Res.bind_eq_ok.1 h
  obtain ⟨n1, a12, h⟩ := Res.bind_eq_ok.1 h
  obtain ⟨n2, a13, h⟩ := Res.bind_eq_ok.1 h
  obtain ⟨o1, a14, h⟩ := Res.bind_eq_ok.1 h
  obtain ⟨o2, a15, h⟩ := Res.bind_eq_ok.1 h
  obtain ⟨rfl, rfl⟩ := Prod.mk.inj (Res.ok.inj h)
  obtain ⟨pt1Com', b1, h'⟩ := Res.bind_eq_ok.1 h'
  obtain ⟨⟨R', m1'⟩, b2, h'⟩ := Res.bind_eq_ok.1 h'
  obtain ⟨comp', b3, h'⟩ := Res.bind_eq_ok.1 h'
  obtain ⟨⟨cHi', cLo'⟩, b4, h'⟩ := Res.bind_eq_ok.1 h'
  obtain ⟨hi', b5, h'⟩ := Res.bind_eq_ok.1 h'
  obtain ⟨lo', b6, h'⟩ := Res.bind_eq_ok.1 h'
  obtain ⟨dHi', b7, h'⟩ := Res.bind_eq_ok.1 h'
  obtain ⟨dLo', b8, h'⟩ := Res.bind_eq_ok.1 h'
  obtain ⟨⟨x', m2'⟩, b9, h'⟩ := Res.bind_eq_ok.1 h'
  obtain ⟨xv', b10, h'⟩ := Res.bind_eq_ok.1 h'
  obtain ⟨lin', b11, h'⟩ := Res.bind_eq_ok.1 h'
  obtain ⟨n1', b12, h'⟩ := Res.bind_eq_ok.1 h'
  obtain ⟨n2', b13, h'⟩ := Res.bind_eq_ok.1 h'
  obtain ⟨o1', b14, h'⟩ := Res.bind_eq_ok.1 h'
  obtain ⟨o2', b15, h'⟩ := Res.bind_eq_ok.1 h'
  obtain ⟨rfl, rfl⟩ := Prod.mk.inj (Res.ok.inj h')
  clear h h' a14 a15 b14 b15
  obtain rfl : pt1Com = pt1Com' := e1
  obtain rfl : dHi = dHi' := Prod.ext e2 e3
  obtain rfl : dLo = dLo' := Prod.ext e4 e5
  obtain ⟨rfl, rfl⟩ := Prod.mk.inj (Res.ok.inj (a2.symm.trans b2))
  obtain ⟨rfl, rfl⟩ := Prod.mk.inj (Res.ok.inj (a9.symm.trans b9))
  obtain rfl := Res.ok.inj (a10.symm.trans b10)
  obtain rfl := Res.ok.inj (a11.symm.trans b11)
  obtain rfl := Res.ok.inj (a12.symm.trans b12)
  obtain rfl := Res.ok.inj (a13.symm.trans b13)
  refine ⟨rfl, ?_⟩
  rintro rfl rfl rfl
  obtain rfl := Res.ok.inj (a3.symm.trans b3)
  obtain ⟨rfl, rfl⟩ := Prod.mk.inj (Res.ok.inj (a4.symm.trans b4))
  obtain rfl := Res.ok.inj (a5.symm.trans b5)
  obtain rfl := Res.ok.inj (a6.symm.trans b6)
  obtain ⟨i1, i2⟩ := commitPair_inj hB a7 b7
  obtain ⟨i3, i4⟩ := commitPair_inj hB a8 b8
  exact ⟨commitS_inj hB a1 b1, i1, i2, i3, i4⟩

theorem enc_two {E : Env (ZMod q) G} (hB : Function.Injective (fun s : ZMod q => s • E.base)) {P : Params q}
    {tests tests' : ℕ → Tests} {fresh fresh' : Blocks (ZMod q)}
    {vd v1 v2 : VerifierData (ZMod q) G E.St} {pd pd' p1 p2 : ProverData (ZMod q)}
    {ct1 ct2 : EVec q 2} {ptxt ptxt' : List (ZMod q)} {rnd noise1 noise2 rnd' noise1' noise2' : EVec q 2}
    (h : proveEncryption E P fresh tests vd pd ct1 ct2 ptxt rnd noise1 noise2 = .ok (v1, p1))
    (h' : proveEncryption E P fresh' tests' vd pd' ct1 ct2 ptxt' rnd' noise1' noise2' = .ok (v2, p2))
    (e0 : v1.com.pt2 = v2.com.pt2) (e1 : v1.com.r = v2.com.r) (e2 : v1.com.rComp = v2.com.rComp)
    (e3 : v1.com.rPad = v2.com.rPad) (e4 : v1.com.eComp1Hi = v2.com.eComp1Hi) (e5 : v1.com.ePad1Hi = v2.com.ePad1Hi)
    (e6 : v1.com.eComp1Lo = v2.com.eComp1Lo) (e7 : v1.com.ePad1Lo = v2.com.ePad1Lo) (e8 : v1.com.eComp2Hi = v2.com.eComp2Hi)
    (e9 : v1.com.ePad2Hi = v2.com.ePad2Hi) (e10 : v1.com.eComp2Lo = v2.com.eComp2Lo) (e11 : v1.com.ePad2Lo = v2.com.ePad2Lo) :
    v1 = v2 ∧ (tests = tests' → ptxt = ptxt' → rnd = rnd' → noise1 = noise1' → noise2 = noise2' →
      fresh.pt2 = fresh'.pt2 ∧ fresh.r = fresh'.r ∧ fresh.rComp = fresh'.rComp ∧
      fresh.rPad = fresh'.rPad ∧ fresh.eComp1Hi = fresh'.eComp1Hi ∧ fresh.ePad1Hi = fresh'.ePad1Hi ∧
      fresh.eComp1Lo = fresh'.eComp1Lo ∧ fresh.ePad1Lo = fresh'.ePad1Lo ∧ fresh.eComp2Hi = fresh'.eComp2Hi ∧
      fresh.ePad2Hi = fresh'.ePad2Hi ∧ fresh.eComp2Lo = fresh'.eComp2Lo ∧ fresh.ePad2Lo = fresh'.ePad2Lo) := by
  unfold proveEncryption at h h'
  simp only at h h'
  obtain ⟨pt2Com, a0, h⟩ := Res.bind_eq_ok.1 h
  obtain ⟨rCom, a1, h⟩ := Res.bind_eq_ok.1 h
  obtain ⟨⟨R1, m1⟩, a2, h⟩ := Res.bind_eq_ok.1 h
  obtain ⟨⟨R2, m2⟩, a3, h⟩ := Res.bind_eq_ok.1 h
  obtain ⟨⟨R3, m3⟩, a4, h⟩ := Res.bind_eq_ok.1 h
  obtain ⟨cn1, a5, h⟩ := Res.bind_eq_ok.1 h
  obtain ⟨cn2, a6, h⟩ := Res.bind_eq_ok.1 h
  obtain ⟨cr, a7, h⟩ := Res.bind_eq_ok.1 h
  obtain ⟨⟨c1h, c1l⟩, a8, h⟩ := Res.bind_eq_ok.1 h
  obtain ⟨⟨c2h, c2l⟩, a9, h⟩ := Res.bind_eq_ok.1 h
  obtain ⟨r, a10, h⟩ := Res.bind_eq_ok.1 h
  obtain ⟨hi1, a11, h⟩ := Res.bind_eq_ok.1 h
  obtain ⟨lo1, a12, h⟩ := Res.bind_eq_ok.1 h
  obtain ⟨hi2, a13, h⟩ := Res.bind_eq_ok.1 h
  obtain ⟨lo2, a14, h⟩ := Res.bind_eq_ok.1 h
  obtain ⟨dR, a15, h⟩ := Res.bind_eq_ok.1 h
  obtain ⟨dHi1, a16, h⟩ := Res.bind_eq_ok.1 h
  obtain ⟨dLo1, a17, h⟩ := Res.bind_eq_ok.1 h
  obtain ⟨dHi2, a18, h⟩ := Res.bind_eq_ok.1 h
  obtain ⟨dLo2, a19, h⟩ := Res.bind_eq_ok.1 h
  obtain ⟨l1, a20, h⟩ := Res.bind_eq_ok.1 h
  obtain ⟨l2, a21, h⟩ := Res.bind_eq_ok.1 h
  obtain ⟨⟨x1, m4⟩, a22, h⟩ := Res.bind_eq_ok.1 h
  obtain ⟨xv1, a23, h⟩ := Res.bind_eq_ok.1 h
  obtain ⟨l3, a24, h⟩ := Res.bind_eq_ok.1 h
  obtain ⟨⟨x2, m5⟩, a25, h⟩ := Res.bind_eq_ok.1 h
  obtain ⟨xv2, a26, h⟩ := Res.bind_eq_ok.1 h
  obtain ⟨l4, a27, h⟩ := Res.bind_eq_ok.1 h
  obtain ⟨⟨x3, m6⟩, a28, h⟩ := Res.bind_eq_ok.1 h
  obtain ⟨xv3, a29, h⟩ := Res.bind_eq_ok.1 h
  obtain ⟨l5, a30, h⟩ := Res.bind_eq_ok.1 h
  obtain ⟨n1, a31, h⟩ := Res.bind_eq_ok.1 h
  obtain ⟨n2, a32, h⟩ := Res.bind_eq_ok.1 h
  obtain ⟨n3, a33, h⟩ := Res.bind_eq_ok.1 h
  obtain ⟨n4, a34, h⟩ := Res.bind_eq_ok.1 h
  obtain ⟨n5, a35, h⟩ := Res.bind_eq_ok.1 h
  obtain ⟨o1, a36, h⟩ := Res.bind_eq_ok.1 h
  obtain ⟨o2, a37, h⟩ := Res.bind_eq_ok.1 h
  obtain ⟨o3, a38, h⟩ := Res.bind_eq_ok.1 h
  obtain ⟨o4, a39, h⟩ := Res.bind_eq_ok.1 h
  obtain ⟨o5, a40, h⟩ := Res.bind_eq_ok.1 h
  obtain ⟨rfl, rfl⟩ := Prod.mk.inj (Res.ok.inj h)
  obtain ⟨pt2Com', b0, h'⟩ := Res.bind_eq_ok.1 h'
  obtain ⟨rCom', b1, h'⟩ := Res.bind_eq_ok.1 h'
  obtain ⟨⟨R1', m1'⟩, b2, h'⟩ := Res.bind_eq_ok.1 h'
  obtain ⟨⟨R2', m2'⟩, b3, h'⟩ := Res.bind_eq_ok.1 h'
  obtain ⟨⟨R3', m3'⟩, b4, h'⟩ := Res.bind_eq_ok.1 h'
  obtain ⟨cn1', b5, h'⟩ := Res.bind_eq_ok.1 h'
  obtain ⟨cn2', b6, h'⟩ := Res.bind_eq_ok.1 h'
  obtain ⟨cr', b7, h'⟩ := Res.bind_eq_ok.1 h'
  obtain ⟨⟨c1h', c1l'⟩, b8, h'⟩ := Res.bind_eq_ok.1 h'
  obtain ⟨⟨c2h', c2l'⟩, b9, h'⟩ := Res.bind_eq_ok.1 h'
  obtain ⟨r', b10, h'⟩ := Res.bind_eq_ok.1 h'
  obtain ⟨hi1', b11, h'⟩ := Res.bind_eq_ok.1 h'
  obtain ⟨lo1', b12, h'⟩ := Res.bind_eq_ok.1 h'
  obtain ⟨hi2', b13, h'⟩ := Res.bind_eq_ok.1 h'
  obtain ⟨lo2', b14, h'⟩ := Res.bind_eq_ok.1 h'
  obtain ⟨dR', b15, h'⟩ := Res.bind_eq_ok.1 h'
  obtain ⟨dHi1', b16, h'⟩ := Res.bind_eq_ok.1 h'
  obtain ⟨dLo1', b17, h'⟩ := Res.bind_eq_ok.1 h'
  obtain ⟨dHi2', b18, h'⟩ := Res.bind_eq_ok.1 h'
  obtain ⟨dLo2', b19, h'⟩ := Res.bind_eq_ok.1 h'
  obtain ⟨l1', b20, h'⟩ := Res.bind_eq_ok.1 h'
  obtain ⟨l2', b21, h'⟩ := Res.bind_eq_ok.1 h'
  obtain ⟨⟨x1', m4'⟩, b22, h'⟩ := Res.bind_eq_ok.1 h'
  obtain ⟨xv1', b23, h'⟩ := Res.bind_eq_ok.1 h'
  obtain ⟨l3', b24, h'⟩ := Res.bind_eq_ok.1 h'
  obtain ⟨⟨x2', m5'⟩, b25, h'⟩ := Res.bind_eq_ok.1 h'
  obtain ⟨xv2', b26, h'⟩ := Res.bind_eq_ok.1 h'
  obtain ⟨l4', b27, h'⟩ := Res.bind_eq_ok.1 h'
  obtain ⟨⟨x3', m6'⟩, b28, h'⟩ := Res.bind_eq_ok.1 h'
  obtain ⟨xv3', b29, h'⟩ := Res.bind_eq_ok.1 h'
  obtain ⟨l5', b30, h'⟩ := Res.bind_eq_ok.1 h'
  obtain ⟨n1', b31, h'⟩ := Res.bind_eq_ok.1 h'
  obtain ⟨n2', b32, h'⟩ := Res.bind_eq_ok.1 h'
  obtain ⟨n3', b33, h'⟩ := Res.bind_eq_ok.1 h'
  obtain ⟨n4', b34, h'⟩ := Res.bind_eq_ok.1 h'
  obtain ⟨n5', b35, h'⟩ := Res.bind_eq_ok.1 h'
  obtain ⟨o1', b36, h'⟩ := Res.bind_eq_ok.1 h'
  obtain ⟨o2', b37, h'⟩ := Res.bind_eq_ok.1 h'
  obtain ⟨o3', b38, h'⟩ := Res.bind_eq_ok.1 h'
  obtain ⟨o4', b39, h'⟩ := Res.bind_eq_ok.1 h'
  obtain ⟨o5', b40, h'⟩ := Res.bind_eq_ok.1 h'
  obtain ⟨rfl, rfl⟩ := Prod.mk.inj (Res.ok.inj h')
  obtain rfl : pt2Com = pt2Com' := e0
  obtain rfl : rCom = rCom' := e1
  obtain rfl : dR = dR' := Prod.ext e2 e3
  obtain rfl : dHi1 = dHi1' := Prod.ext e4 e5
  obtain rfl : dLo1 = dLo1' := Prod.ext e6 e7
  obtain rfl : dHi2 = dHi2' := Prod.ext e8 e9
  obtain rfl : dLo2 = dLo2' := Prod.ext e10 e11
  obtain ⟨rfl, rfl⟩ := Prod.mk.inj (Res.ok.inj (a2.symm.trans b2))
  obtain ⟨rfl, rfl⟩ := Prod.mk.inj (Res.ok.inj (a3.symm.trans b3))
  obtain ⟨rfl, rfl⟩ := Prod.mk.inj (Res.ok.inj (a4.symm.trans b4))
  obtain rfl := Res.ok.inj (a20.symm.trans b20)
  obtain rfl := Res.ok.inj (a21.symm.trans b21)
  obtain ⟨rfl, rfl⟩ := Prod.mk.inj (Res.ok.inj (a22.symm.trans b22))
  obtain rfl := Res.ok.inj (a23.symm.trans b23)
  obtain rfl := Res.ok.inj (a24.symm.trans b24)
  obtain ⟨rfl, rfl⟩ := Prod.mk.inj (Res.ok.inj (a25.symm.trans b25))
  obtain rfl := Res.ok.inj (a26.symm.trans b26)
  obtain rfl := Res.ok.inj (a27.symm.trans b27)
  obtain ⟨rfl, rfl⟩ := Prod.mk.inj (Res.ok.inj (a28.symm.trans b28))
  obtain rfl := Res.ok.inj (a29.symm.trans b29)
  obtain rfl := Res.ok.inj (a30.symm.trans b30)
  obtain rfl := Res.ok.inj (a31.symm.trans b31)
  obtain rfl := Res.ok.inj (a32.symm.trans b32)
  obtain rfl := Res.ok.inj (a33.symm.trans b33)
  obtain rfl := Res.ok.inj (a34.symm.trans b34)
  obtain rfl := Res.ok.inj (a35.symm.trans b35)
  refine ⟨rfl, ?_⟩
  rintro rfl rfl rfl rfl rfl
  obtain rfl := Res.ok.inj (a5.symm.trans b5)
  obtain rfl := Res.ok.inj (a6.symm.trans b6)
  obtain rfl := Res.ok.inj (a7.symm.trans b7)
  obtain ⟨rfl, rfl⟩ := Prod.mk.inj (Res.ok.inj (a8.symm.trans b8))
  obtain ⟨rfl, rfl⟩ := Prod.mk.inj (Res.ok.inj (a9.symm.trans b9))
  obtain rfl := Res.ok.inj (a10.symm.trans b10)
  obtain rfl := Res.ok.inj (a11.symm.trans b11)
  obtain rfl := Res.ok.inj (a12.symm.trans b12)
  obtain rfl := Res.ok.inj (a13.symm.trans b13)
  obtain rfl := Res.ok.inj (a14.symm.trans b14)
  obtain ⟨i0, i1⟩ := commitPair_inj hB a15 b15
  obtain ⟨i2, i3⟩ := commitPair_inj hB a16 b16
  obtain ⟨i4, i5⟩ := commitPair_inj hB a17 b17
  obtain ⟨i6, i7⟩ := commitPair_inj hB a18 b18
  obtain ⟨i8, i9⟩ := commitPair_inj hB a19 b19
  exact ⟨commitS_inj hB a0 b0, commitE_inj hB a1 b1, i0, i1, i2, i3, i4, i5, i6, i7, i8, i9⟩

theorem key_two {E : Env (ZMod q) G} (hB : Function.Injective (fun s : ZMod q => s • E.base)) {P : Params q}
    {tests tests' : ℕ → Tests} {fresh fresh' : Blocks (ZMod q)}
    {vd v1 v2 : VerifierData (ZMod q) G E.St} {pd pd' p1 p2 : ProverData (ZMod q)}
    {pkNum : ℕ} {skey noise skey' noise' : EVec q 2}
    (h : proveKeyGen E P fresh tests vd pd pkNum skey noise = .ok (v1, p1))
    (h' : proveKeyGen E P fresh' tests' vd pd' pkNum skey' noise' = .ok (v2, p2))
    (e0 : v1.com.sk2 = v2.com.sk2) (e1 : v1.com.sk2Comp = v2.com.sk2Comp) (e2 : v1.com.sk2Pad = v2.com.sk2Pad)
    (e3 : v1.com.kCompHi = v2.com.kCompHi) (e4 : v1.com.kPadHi = v2.com.kPadHi) (e5 : v1.com.kCompLo = v2.com.kCompLo)
    (e6 : v1.com.kPadLo = v2.com.kPadLo) :
    v1 = v2 ∧ (tests = tests' → skey = skey' → noise = noise' →
      fresh.sk2 = fresh'.sk2 ∧ fresh.sk2Comp = fresh'.sk2Comp ∧ fresh.sk2Pad = fresh'.sk2Pad ∧
      fresh.kCompHi = fresh'.kCompHi ∧ fresh.kPadHi = fresh'.kPadHi ∧ fresh.kCompLo = fresh'.kCompLo ∧
      fresh.kPadLo = fresh'.kPadLo) := by
  unfold proveKeyGen at h h'
  simp only at h h'
  obtain ⟨skCom, a0, h⟩ := Res.bind_eq_ok.1 h
  obtain ⟨⟨R1, m1⟩, a1, h⟩ := Res.bind_eq_ok.1 h
  obtain ⟨⟨R2, m2⟩, a2, h⟩ := Res.bind_eq_ok.1 h
  obtain ⟨ek, a3, h⟩ := Res.bind_eq_ok.1 h
  obtain ⟨sc, a4, h⟩ := Res.bind_eq_ok.1 h
  obtain ⟨⟨eh, el⟩, a5, h⟩ := Res.bind_eq_ok.1 h
  obtain ⟨sk, a6, h⟩ := Res.bind_eq_ok.1 h
  obtain ⟨hi, a7, h⟩ := Res.bind_eq_ok.1 h
  obtain ⟨lo, a8, h⟩ := Res.bind_eq_ok.1 h
  obtain ⟨dS, a9, h⟩ := Res.bind_eq_ok.1 h
  obtain ⟨dHi, a10, h⟩ := Res.bind_eq_ok.1 h
  obtain ⟨dLo, a11, h⟩ := Res.bind_eq_ok.1 h
  obtain ⟨l1, a12, h⟩ := Res.bind_eq_ok.1 h
  obtain ⟨l2, a13, h⟩ := Res.bind_eq_ok.1 h
  obtain ⟨⟨x1, m3⟩, a14, h⟩ := Res.bind_eq_ok.1 h
  obtain ⟨xv1, a15, h⟩ := Res.bind_eq_ok.1 h
  obtain ⟨pk, a16, h⟩ := Res.bind_eq_ok.1 h
  obtain ⟨l3, a17, h⟩ := Res.bind_eq_ok.1 h
  obtain ⟨⟨x2, m4⟩, a18, h⟩ := Res.bind_eq_ok.1 h
  obtain ⟨xv2, a19, h⟩ := Res.bind_eq_ok.1 h
  obtain ⟨l4, a20, h⟩ := Res.bind_eq_ok.1 h
  obtain ⟨n1, a21, h⟩ := Res.bind_eq_ok.1 h
  obtain ⟨n2, a22, h⟩ := Res.bind_eq_ok.1 h
  obtain ⟨n3, a23, h⟩ := Res.bind_eq_ok.1 h
  obtain ⟨o1, a24, h⟩ := Res.bind_eq_ok.1 h
  obtain ⟨o2, a25, h⟩ := Res.bind_eq_ok.1 h
  obtain ⟨o3, a26, h⟩ := Res.bind_eq_ok.1 h
  obtain ⟨rfl, rfl⟩ := Prod.mk.inj (Res.ok.inj h)
  obtain ⟨skCom', b0, h'⟩ := Res.bind_eq_ok.1 h'
  obtain ⟨⟨R1', m1'⟩, b1, h'⟩ := Res.bind_eq_ok.1 h'
  obtain ⟨⟨R2', m2'⟩, b2, h'⟩ := Res.bind_eq_ok.1 h'
  obtain ⟨ek', b3, h'⟩ := Res.bind_eq_ok.1 h'
  obtain ⟨sc', b4, h'⟩ := Res.bind_eq_ok.1 h'
  obtain ⟨⟨eh', el'⟩, b5, h'⟩ := Res.bind_eq_ok.1 h'
  obtain ⟨sk', b6, h'⟩ := Res.bind_eq_ok.1 h'
  obtain ⟨hi', b7, h'⟩ := Res.bind_eq_ok.1 h'
  obtain ⟨lo', b8, h'⟩ := Res.bind_eq_ok.1 h'
  obtain ⟨dS', b9, h'⟩ := Res.bind_eq_ok.1 h'
  obtain ⟨dHi', b10, h'⟩ := Res.bind_eq_ok.1 h'
  obtain ⟨dLo', b11, h'⟩ := Res.bind_eq_ok.1 h'
  obtain ⟨l1', b12, h'⟩ := Res.bind_eq_ok.1 h'
  obtain ⟨l2', b13, h'⟩ := Res.bind_eq_ok.1 h'
  obtain ⟨⟨x1', m3'⟩, b14, h'⟩ := Res.bind_eq_ok.1 h'
  obtain ⟨xv1', b15, h'⟩ := Res.bind_eq_ok.1 h'
  obtain ⟨pk', b16, h'⟩ := Res.bind_eq_ok.1 h'
  obtain ⟨l3', b17, h'⟩ := Res.bind_eq_ok.1 h'
  obtain ⟨⟨x2', m4'⟩, b18, h'⟩ := Res.bind_eq_ok.1 h'
  obtain ⟨xv2', b19, h'⟩ := Res.bind_eq_ok.1 h'
  obtain ⟨l4', b20, h'⟩ := Res.bind_eq_ok.1 h'
  obtain ⟨n1', b21, h'⟩ := Res.bind_eq_ok.1 h'
  obtain ⟨n2', b22, h'⟩ := Res.bind_eq_ok.1 h'
  obtain ⟨n3', b23, h'⟩ := Res.bind_eq_ok.1 h'
  obtain ⟨o1', b24, h'⟩ := Res.bind_eq_ok.1 h'
  obtain ⟨o2', b25, h'⟩ := Res.bind_eq_ok.1 h'
  obtain ⟨o3', b26, h'⟩ := Res.bind_eq_ok.1 h'
  obtain ⟨rfl, rfl⟩ := Prod.mk.inj (Res.ok.inj h')
  obtain rfl : skCom = skCom' := e0
  obtain rfl : dS = dS' := Prod.ext e1 e2
  obtain rfl : dHi = dHi' := Prod.ext e3 e4
  obtain rfl : dLo = dLo' := Prod.ext e5 e6
  obtain ⟨rfl, rfl⟩ := Prod.mk.inj (Res.ok.inj (a1.symm.trans b1))
  obtain ⟨rfl, rfl⟩ := Prod.mk.inj (Res.ok.inj (a2.symm.trans b2))
  obtain rfl := Res.ok.inj (a12.symm.trans b12)
  obtain rfl := Res.ok.inj (a13.symm.trans b13)
  obtain ⟨rfl, rfl⟩ := Prod.mk.inj (Res.ok.inj (a14.symm.trans b14))
  obtain rfl := Res.ok.inj (a15.symm.trans b15)
  obtain rfl := Res.ok.inj (a16.symm.trans b16)
  obtain rfl := Res.ok.inj (a17.symm.trans b17)
  obtain ⟨rfl, rfl⟩ := Prod.mk.inj (Res.ok.inj (a18.symm.trans b18))
  obtain rfl := Res.ok.inj (a19.symm.trans b19)
  obtain rfl := Res.ok.inj (a20.symm.trans b20)
  obtain rfl := Res.ok.inj (a21.symm.trans b21)
  obtain rfl := Res.ok.inj (a22.symm.trans b22)
  obtain rfl := Res.ok.inj (a23.symm.trans b23)
  refine ⟨rfl, ?_⟩
  rintro rfl rfl rfl
  obtain rfl := Res.ok.inj (a3.symm.trans b3)
  obtain rfl := Res.ok.inj (a4.symm.trans b4)
  obtain ⟨rfl, rfl⟩ := Prod.mk.inj (Res.ok.inj (a5.symm.trans b5))
  obtain rfl := Res.ok.inj (a6.symm.trans b6)
  obtain rfl := Res.ok.inj (a7.symm.trans b7)
  obtain rfl := Res.ok.inj (a8.symm.trans b8)
  obtain ⟨i0, i1⟩ := commitPair_inj hB a9 b9
  obtain ⟨i2, i3⟩ := commitPair_inj hB a10 b10
  obtain ⟨i4, i5⟩ := commitPair_inj hB a11 b11
  exact ⟨commitE_inj hB a0 b0, i0, i1, i2, i3, i4, i5⟩

theorem enc_com {E : Env (ZMod q) G} {P : Params q} {tests : ℕ → Tests} {fresh : Blocks (ZMod q)}
    {vd v1 : VerifierData (ZMod q) G E.St} {pd p1 : ProverData (ZMod q)}
    {ct1 ct2 : EVec q 2} {ptxt : List (ZMod q)} {rnd noise1 noise2 : EVec q 2}
    (h : proveEncryption E P fresh tests vd pd ct1 ct2 ptxt rnd noise1 noise2 = .ok (v1, p1)) :
    v1.com = { vd.com with pt2 := v1.com.pt2, r := v1.com.r, rComp := v1.com.rComp,
                           rPad := v1.com.rPad, eComp1Hi := v1.com.eComp1Hi, ePad1Hi := v1.com.ePad1Hi,
                           eComp1Lo := v1.com.eComp1Lo, ePad1Lo := v1.com.ePad1Lo, eComp2Hi := v1.com.eComp2Hi,
                           ePad2Hi := v1.com.ePad2Hi, eComp2Lo := v1.com.eComp2Lo, ePad2Lo := v1.com.ePad2Lo } := by
  unfold proveEncryption at h
  simp only at h
  obtain ⟨pt2Com, -, h⟩ := Res.bind_eq_ok.1 h
  obtain ⟨rCom, -, h⟩ := Res.bind_eq_ok.1 h
  obtain ⟨⟨R1, m1⟩, -, h⟩ := Res.bind_eq_ok.1 h
  obtain ⟨⟨R2, m2⟩, -, h⟩ := Res.bind_eq_ok.1 h
  obtain ⟨⟨R3, m3⟩, -, h⟩ := Res.bind_eq_ok.1 h
  obtain ⟨cn1, -, h⟩ := Res.bind_eq_ok.1 h
  obtain ⟨cn2, -, h⟩ := Res.bind_eq_ok.1 h
  obtain ⟨cr, -, h⟩ := Res.bind_eq_ok.1 h
  obtain ⟨⟨c1h, c1l⟩, -, h⟩ := Res.bind_eq_ok.1 h
  obtain ⟨⟨c2h, c2l⟩, -, h⟩ := Res.bind_eq_ok.1 h
  obtain ⟨r, -, h⟩ := Res.bind_eq_ok.1 h
  obtain ⟨hi1, -, h⟩ := Res.bind_eq_ok.1 h
  obtain ⟨lo1, -, h⟩ := Res.bind_eq_ok.1 h
  obtain ⟨hi2, -, h⟩ := Res.bind_eq_ok.1 h
  obtain ⟨lo2, -, h⟩ := Res.bind_eq_ok.1 h
  obtain ⟨dR, -, h⟩ := Res.bind_eq_ok.1 h
  obtain ⟨dHi1, -, h⟩ := Res.bind_eq_ok.1 h
  obtain ⟨dLo1, -, h⟩ := Res.bind_eq_ok.1 h
  obtain ⟨dHi2, -, h⟩ := Res.bind_eq_ok.1 h
  obtain ⟨dLo2, -, h⟩ := Res.bind_eq_ok.1 h
  obtain ⟨l1, -, h⟩ := Res.bind_eq_ok.1 h
  obtain ⟨l2, -, h⟩ := Res.bind_eq_ok.1 h
  obtain ⟨⟨x1, m4⟩, -, h⟩ := Res.bind_eq_ok.1 h
  obtain ⟨xv1, -, h⟩ := Res.bind_eq_ok.1 h
  obtain ⟨l3, -, h⟩ := Res.bind_eq_ok.1 h
  obtain ⟨⟨x2, m5⟩, -, h⟩ := Res.bind_eq_ok.1 h
  obtain ⟨xv2, -, h⟩ := Res.bind_eq_ok.1 h
  obtain ⟨l4, -, h⟩ := Res.bind_eq_ok.1 h
  obtain ⟨⟨x3, m6⟩, -, h⟩ := Res.bind_eq_ok.1 h
  obtain ⟨xv3, -, h⟩ := Res.bind_eq_ok.1 h
  obtain ⟨l5, -, h⟩ := Res.bind_eq_ok.1 h
  obtain ⟨n1, -, h⟩ := Res.bind_eq_ok.1 h
  obtain ⟨n2, -, h⟩ := Res.bind_eq_ok.1 h
  obtain ⟨n3, -, h⟩ := Res.bind_eq_ok.1 h
  obtain ⟨n4, -, h⟩ := Res.bind_eq_ok.1 h
  obtain ⟨n5, -, h⟩ := Res.bind_eq_ok.1 h
  obtain ⟨o1, -, h⟩ := Res.bind_eq_ok.1 h
  obtain ⟨o2, -, h⟩ := Res.bind_eq_ok.1 h
  obtain ⟨o3, -, h⟩ := Res.bind_eq_ok.1 h
  obtain ⟨o4, -, h⟩ := Res.bind_eq_ok.1 h
  obtain ⟨o5, -, h⟩ := Res.bind_eq_ok.1 h
  obtain ⟨rfl, rfl⟩ := Prod.mk.inj (Res.ok.inj h)
  rfl

theorem key_com {E : Env (ZMod q) G} {P : Params q} {tests : ℕ → Tests} {fresh : Blocks (ZMod q)}
    {vd v1 : VerifierData (ZMod q) G E.St} {pd p1 : ProverData (ZMod q)}
    {pkNum : ℕ} {skey noise : EVec q 2}
    (h : proveKeyGen E P fresh tests vd pd pkNum skey noise = .ok (v1, p1)) :
    v1.com = { vd.com with sk2 := v1.com.sk2, sk2Comp := v1.com.sk2Comp, sk2Pad := v1.com.sk2Pad,
                           kCompHi := v1.com.kCompHi, kPadHi := v1.com.kPadHi, kCompLo := v1.com.kCompLo,
                           kPadLo := v1.com.kPadLo } := by
  unfold proveKeyGen at h
  simp only at h
  obtain ⟨skCom, -, h⟩ := Res.bind_eq_ok.1 h
  obtain ⟨⟨R1, m1⟩, -, h⟩ := Res.bind_eq_ok.1 h
  obtain ⟨⟨R2, m2⟩, -, h⟩ := Res.bind_eq_ok.1 h
  obtain ⟨ek, -, h⟩ := Res.bind_eq_ok.1 h
  obtain ⟨sc, -, h⟩ := Res.bind_eq_ok.1 h
  obtain ⟨⟨eh, el⟩, -, h⟩ := Res.bind_eq_ok.1 h
  obtain ⟨sk, -, h⟩ := Res.bind_eq_ok.1 h
  obtain ⟨hi, -, h⟩ := Res.bind_eq_ok.1 h
  obtain ⟨lo, -, h⟩ := Res.bind_eq_ok.1 h
  obtain ⟨dS, -, h⟩ := Res.bind_eq_ok.1 h
  obtain ⟨dHi, -, h⟩ := Res.bind_eq_ok.1 h
  obtain ⟨dLo, -, h⟩ := Res.bind_eq_ok.1 h
  obtain ⟨l1, -, h⟩ := Res.bind_eq_ok.1 h
  obtain ⟨l2, -, h⟩ := Res.bind_eq_ok.1 h
  obtain ⟨⟨x1, m3⟩, -, h⟩ := Res.bind_eq_ok.1 h
  obtain ⟨xv1, -, h⟩ := Res.bind_eq_ok.1 h
  obtain ⟨pk, -, h⟩ := Res.bind_eq_ok.1 h
  obtain ⟨l3, -, h⟩ := Res.bind_eq_ok.1 h
  obtain ⟨⟨x2, m4⟩, -, h⟩ := Res.bind_eq_ok.1 h
  obtain ⟨xv2, -, h⟩ := Res.bind_eq_ok.1 h
  obtain ⟨l4, -, h⟩ := Res.bind_eq_ok.1 h
  obtain ⟨n1, -, h⟩ := Res.bind_eq_ok.1 h
  obtain ⟨n2, -, h⟩ := Res.bind_eq_ok.1 h
  obtain ⟨n3, -, h⟩ := Res.bind_eq_ok.1 h
  obtain ⟨o1, -, h⟩ := Res.bind_eq_ok.1 h
  obtain ⟨o2, -, h⟩ := Res.bind_eq_ok.1 h
  obtain ⟨o3, -, h⟩ := Res.bind_eq_ok.1 h
  obtain ⟨rfl, rfl⟩ := Prod.mk.inj (Res.ok.inj h)
  rfl

theorem reShare_com {St : Type} {P : Params q} {vd v1 : VerifierData (ZMod q) G St} {pd p1 : ProverData (ZMod q)}
    {lagrange pt1 pt2 : List (ZMod q)} (h : proveReShare P vd pd lagrange pt1 pt2 = .ok (v1, p1)) :
    v1.com = vd.com := by
  unfold proveReShare at h
  split_ifs at h
  obtain ⟨lin, -, h⟩ := Res.bind_eq_ok.1 h
  obtain ⟨rfl, rfl⟩ := Prod.mk.inj (Res.ok.inj h)
  rfl

theorem reShare_two {St : Type} {P : Params q} {vd v1 v2 : VerifierData (ZMod q) G St}
    {pd pd' p1 p2 : ProverData (ZMod q)} {lagrange pt1 pt2 pt1' pt2' : List (ZMod q)}
    (h : proveReShare P vd pd lagrange pt1 pt2 = .ok (v1, p1))
    (h' : proveReShare P vd pd' lagrange pt1' pt2' = .ok (v2, p2)) : v1 = v2 := by
  unfold proveReShare at h h'
  split_ifs at h h'
  obtain ⟨lin, a, h⟩ := Res.bind_eq_ok.1 h
  obtain ⟨lin', b, h'⟩ := Res.bind_eq_ok.1 h'
  obtain rfl := Res.ok.inj (a.symm.trans b)
  obtain ⟨rfl, rfl⟩ := Prod.mk.inj (Res.ok.inj h)
  obtain ⟨rfl, rfl⟩ := Prod.mk.inj (Res.ok.inj h')
  rfl

end
end Verif
