/-
What the constraints of a complete round say, in terms of the challenges that come out of the final commitments.
-/
import Verif.Lemmas.Round
import Verif.Spec.RoundSound

namespace Verif
open Regev Spec
open scoped BigOperators

noncomputable section
variable {q : ℕ} [Fact q.Prime] {G : Type} [AddCommGroup G] [Module (ZMod q) G]

theorem decChallenges_congr {E : Env (ZMod q) G} {st : E.St} {tee : ℕ} {a b : Blocks G} (h1 : a.pt1 = b.pt1)
    (h2 : a.dCompHi = b.dCompHi) (h3 : a.dPadHi = b.dPadHi) (h4 : a.dCompLo = b.dCompLo) (h5 : a.dPadLo = b.dPadLo) :
    decChallenges E st tee a = decChallenges E st tee b := by
  unfold decChallenges
  rw [h1, h2, h3, h4, h5]

theorem encChallenges_congr {E : Env (ZMod q) G} {st : E.St} {kay enn : ℕ} {a b : Blocks G} (h1 : a.pt2 = b.pt2)
    (h2 : a.r = b.r) (h3 : a.rComp = b.rComp) (h4 : a.rPad = b.rPad) (h5 : a.eComp1Hi = b.eComp1Hi)
    (h6 : a.ePad1Hi = b.ePad1Hi) (h7 : a.eComp1Lo = b.eComp1Lo) (h8 : a.ePad1Lo = b.ePad1Lo)
    (h9 : a.eComp2Hi = b.eComp2Hi) (h10 : a.ePad2Hi = b.ePad2Hi) (h11 : a.eComp2Lo = b.eComp2Lo)
    (h12 : a.ePad2Lo = b.ePad2Lo) : encChallenges E st kay enn a = encChallenges E st kay enn b := by
  unfold encChallenges
  rw [h1, h2, h3, h4, h5, h6, h7, h8, h9, h10, h11, h12]

theorem keyChallenges_congr {E : Env (ZMod q) G} {st : E.St} {kay : ℕ} {a b : Blocks G} (h1 : a.sk2 = b.sk2)
    (h2 : a.sk2Comp = b.sk2Comp) (h3 : a.sk2Pad = b.sk2Pad) (h4 : a.kCompHi = b.kCompHi) (h5 : a.kPadHi = b.kPadHi)
    (h6 : a.kCompLo = b.kCompLo) (h7 : a.kPadLo = b.kPadLo) : keyChallenges E st kay a = keyChallenges E st kay b := by
  unfold keyChallenges
  rw [h1, h2, h3, h4, h5, h6, h7]

/-- Values that satisfy all constraints satisfy those in a slot. -/
theorem slotSat_all {cs : List (LinConstraint (ZMod q))} {s : ℕ} {x : ℕ → ZMod q} (hs : s + 1 < cs.length)
    (h : ∀ c ∈ cs, LinSat c x) : SlotSat cs s x :=
  ⟨cs[s], cs[s + 1], List.getElem?_eq_getElem (by omega), List.getElem?_eq_getElem hs, h _ (List.getElem_mem _),
    h _ (List.getElem_mem _)⟩

/-- The constraints that a complete round records. -/
theorem round_meaning {E : Env (ZMod q) G} (hE : LengthOk E) {P : Params q} (hP : ParamsOk P)
    {tests : ℕ → Tests} (hT : ∀ k, NoFalsePrimes (tests k).probPrime) {fresh : Blocks (ZMod q)}
    {small : ℕ → SmallRnd q} {inp : RoundInput q} (hI : Sized P inp)
    {vd vd' : VerifierData (ZMod q) G E.St} {pd pd' : ProverData (ZMod q)} (S0 : Setup P vd pd)
    (hempty : ∀ c ∈ vd.linConstr, c = ⟨[], 0⟩)
    (h : proveRound E P fresh tests small inp vd pd = .ok (vd', pd')) (C : RoundChallenges q E.St)
    (hC : roundChallenges E vd.mer P.gk.kay P.gk.enn P.gk.tee vd'.com vd'.z = C) :
    (∀ x, (∀ c ∈ vd'.linConstr, LinSat c x) ↔
      batch 128 C.decX (roundEqs P inp vd.ix x C vd'.z).dec = 0 ∧
      batch 128 C.enc.x1 (roundEqs P inp vd.ix x C vd'.z).enc1 = 0 ∧
      batch 128 C.enc.x2 (roundEqs P inp vd.ix x C vd'.z).enc2 = 0 ∧
      batch 128 C.enc.x3 (roundEqs P inp vd.ix x C vd'.z).enc3 = 0 ∧
      batch 128 C.key.x1 (roundEqs P inp vd.ix x C vd'.z).key1 = 0 ∧
      batch 128 C.key.x2 (roundEqs P inp vd.ix x C vd'.z).key2 = 0 ∧
      batch 64 C.smallX (roundEqs P inp vd.ix x C vd'.z).small = 0 ∧
      ∀ y ∈ Spec.matVec P.H (resharing inp.lagrange vd.ix.pt1 vd.ix.pt2 P.gk.enn x), y = 0) ∧
    (∀ k < 10, NormRecorded P vd'.normConstr k) ∧ vd'.normConstr.length = 10 ∧
    vd'.z.length = 64 ∧ lInftyNorm vd'.z ≤ P.B_smallness ∧ vd'.ix = vd.ix ∧ vd'.mer = C.st ∧
    inp.lagrange.length = P.gk.tee ∧ (∀ row ∈ P.H, row.length = 1 + P.gk.enn) := by
  unfold proveRound at h
  obtain ⟨⟨vd1, pd1⟩, h1, h⟩ := Res.bind_eq_ok.1 h
  obtain ⟨⟨vd2, pd2⟩, h2, h⟩ := Res.bind_eq_ok.1 h
  obtain ⟨⟨vd3, pd3⟩, h3, h⟩ := Res.bind_eq_ok.1 h
  obtain ⟨⟨vd4, pd4⟩, h4, h5⟩ := Res.bind_eq_ok.1 h
  simp only at h2 h3 h4 h5
  -- decryption
  obtain ⟨hi0, lo0, s1, -, k0, -, c1, -, m1, -⟩ := dec_run hE hP hT S0 hI.ctMat hI.ctVec hI.pt1 hI.decNoise h1
  have S1 := s1.setup S0
  have i1 := s1.ix
  -- encryption
  have e6 : vd1.linConstr[6]? = vd.linConstr[6]? := s1.linRest 6 (by simp)
  have e7 : vd1.linConstr[7]? = vd.linConstr[7]? := s1.linRest 7 (by simp)
  have h6 : ∀ j : Fin 2, vd1.linConstr.getD (6 + j.val) ⟨[], 0⟩ = ⟨[], 0⟩ := by
    intro j
    have e : vd1.linConstr.getD (6 + j.val) ⟨[], 0⟩ = vd.linConstr.getD (6 + j.val) ⟨[], 0⟩ := by
      rw [List.getD_eq_getElem?_getD, List.getD_eq_getElem?_getD]
      have : j.val = 0 ∨ j.val = 1 := by omega
      rcases this with e | e <;> rw [e]
      · rw [Nat.add_zero, e6]
      · rw [e7]
    rw [e, slot_empty hempty]
  have h6a : SlotOk vd1.linConstr 6 vd1.ix.w := by
    intro i
    rw [h6]
    exact ⟨List.Pairwise.nil, fun j hj => absurd hj List.not_mem_nil⟩
  have h6b : ∀ x, slotLhs vd1.linConstr 6 x = 0 := by
    intro x
    unfold slotLhs
    apply Elt.ext
    funext i
    simp only [h6]
    simp [linLhs]
  obtain ⟨r, hi1, lo1, hi2, lo2, Ce, hCe, s2, -, -, -, k2, k4, k6, -, c2, -, m2, -⟩ :=
    enc_run hE hP hT S1 h6a hI.ct1 hI.ct2 hI.pt2 hI.encRnd hI.encNoise1 hI.encNoise2 h2
  have S2 := s2.setup S1
  have i2 := s2.ix.trans i1
  -- key generation
  obtain ⟨sk, hi3, lo3, Ck, hCk, s3, -, -, -, k8, k10, -, c3, -, m3, -⟩ := key_run hE hP hT S2 hI.sk2 hI.keyNoise h3
  have S3 := s3.setup S2
  have i3 := s3.ix.trans i2
  -- resharing
  have hre : inp.pt1.length = P.gk.tee ∧ inp.lagrange.length = P.gk.tee ∧ inp.pt2.length = P.gk.enn ∧
      (∀ row ∈ P.H, row.length = 1 + P.gk.enn) ∧ 14 + P.H.length ≤ vd3.linConstr.length := by
    by_contra hc
    rw [reshare_run.2 hc] at h4
    cases h4
  obtain ⟨lin, q1, q2, q3, q4⟩ := (reshare_run (pd := pd3)).1 hre
  rw [q1] at h4
  obtain ⟨e4, e5⟩ := Prod.mk.inj (Res.ok.inj h4)
  have S4 : Setup P vd4 pd4 := by
    rw [← e4, ← e5]
    exact ⟨S3.layout, S3.small, S3.gs, S3.hs, by rw [q2]; exact S3.lin, S3.normLength, S3.norm,
      S3.compressed, S3.linWitness, S3.quadWitness⟩
  have z4 : vd4 = { vd3 with linConstr := lin } := e4.symm
  -- smallness
  obtain ⟨i, y, u, -, -, -, y4, -, -, y7, y8, y9, -, y11, -⟩ := small_run hE S4 h5
  have z9 : vd4.ix = vd.ix := by rw [z4]; exact i3
  have z5 : vd'.ix = vd.ix := by rw [y11]; exact z9
  have z8 : vd'.normConstr = vd3.normConstr := by rw [y11, z4]
  have m4 : vd4.mer = vd3.mer := by rw [z4]
  -- the commitments are not changed later
  have d' : decChallenges E vd.mer P.gk.tee vd'.com = decChallenges E vd.mer P.gk.tee vd1.com := by
    have t : ∀ f : Blocks G → G, f vd'.com = f vd3.com → f vd3.com = f vd2.com → f vd2.com = f vd1.com →
        f vd'.com = f vd1.com := fun f a b c => a.trans (b.trans c)
    exact decChallenges_congr (t (·.pt1) (by rw [y11, z4]) (by rw [c3]) (by rw [c2]))
      (t (·.dCompHi) (by rw [y11, z4]) (by rw [c3]) (by rw [c2]))
      (t (·.dPadHi) (by rw [y11, z4]) (by rw [c3]) (by rw [c2]))
      (t (·.dCompLo) (by rw [y11, z4]) (by rw [c3]) (by rw [c2]))
      (t (·.dPadLo) (by rw [y11, z4]) (by rw [c3]) (by rw [c2]))
  have n' : encChallenges E vd1.mer P.gk.kay P.gk.enn vd'.com = Ce := by
    rw [hCe]
    have t : ∀ f : Blocks G → G, f vd'.com = f vd3.com → f vd3.com = f vd2.com → f vd'.com = f vd2.com :=
      fun f a b => a.trans b
    exact encChallenges_congr (t (·.pt2) (by rw [y11, z4]) (by rw [c3]))
      (t (·.r) (by rw [y11, z4]) (by rw [c3]))
      (t (·.rComp) (by rw [y11, z4]) (by rw [c3]))
      (t (·.rPad) (by rw [y11, z4]) (by rw [c3]))
      (t (·.eComp1Hi) (by rw [y11, z4]) (by rw [c3]))
      (t (·.ePad1Hi) (by rw [y11, z4]) (by rw [c3]))
      (t (·.eComp1Lo) (by rw [y11, z4]) (by rw [c3]))
      (t (·.ePad1Lo) (by rw [y11, z4]) (by rw [c3]))
      (t (·.eComp2Hi) (by rw [y11, z4]) (by rw [c3]))
      (t (·.ePad2Hi) (by rw [y11, z4]) (by rw [c3]))
      (t (·.eComp2Lo) (by rw [y11, z4]) (by rw [c3]))
      (t (·.ePad2Lo) (by rw [y11, z4]) (by rw [c3]))
  have g' : keyChallenges E vd2.mer P.gk.kay vd'.com = Ck := by
    rw [hCk]
    exact keyChallenges_congr (by rw [y11, z4]) (by rw [y11, z4]) (by rw [y11, z4]) (by rw [y11, z4])
      (by rw [y11, z4]) (by rw [y11, z4]) (by rw [y11, z4])
  obtain ⟨ds, hds⟩ : ∃ ds, decChallenges E vd.mer P.gk.tee vd1.com = ds := ⟨_, rfl⟩
  obtain ⟨ss, hss⟩ : ∃ ss, smallChallenges E vd4.mer vd'.com vd'.z = ss := ⟨_, rfl⟩
  have mC : C = ⟨ds.1, ds.2.1, Ce, Ck, ss.1, ss.2.1, ss.2.2⟩ := by
    have m2' : Ce.st = vd2.mer := m2.symm
    have m3' : Ck.st = vd4.mer := by rw [m4]; exact m3.symm
    rw [← hC]
    unfold roundChallenges
    simp only
    rw [d', hds]
    have e1 : ds.2.2 = vd1.mer := by rw [← hds]; exact m1.symm
    rw [e1, n', m2', g', m3', hss]
  have mer' : vd'.mer = ss.2.2 := by rw [y11, hss]
  rw [hds] at k0
  rw [hss] at y8
  have l1 := s1.linLength
  have l2 := s2.linLength
  have l3 := s3.linLength
  have l4 : vd4.linConstr.length = vd.linConstr.length := by
    rw [z4]; exact q2.trans (l3.trans (l2.trans l1))
  have l5 : vd'.linConstr.length = vd.linConstr.length := y9.1.trans l4
  have hl := S0.lin
  have f5 : ∀ i, i < 12 → vd'.linConstr[i]? = vd3.linConstr[i]? := by
    intro i hi
    rw [y9.2 i (by omega) (by omega), z4]
    exact q3 i (Or.inl (by omega))
  have f2 : ∀ i, i < 8 → vd'.linConstr[i]? = vd2.linConstr[i]? := by
    intro i hi
    rw [f5 i (by omega)]
    exact s3.linRest i (by simp; omega)
  have f1 : ∀ i, i < 2 → vd'.linConstr[i]? = vd1.linConstr[i]? := by
    intro i hi
    rw [f2 i (by omega)]
    exact s2.linRest i (by simp; omega)
  have f14 : ∀ j, vd'.linConstr[14 + j]? = lin[14 + j]? := by
    intro j
    rw [y9.2 _ (by omega) (by omega), z4]
  have x0 : ∀ x, SlotSat vd'.linConstr 0 x ↔ batch 128 C.decX (roundEqs P inp vd.ix x C vd'.z).dec = 0 := by
    intro x
    rw [mC]
    exact (Iff.intro (slotSat_congr (f1 0 (by omega)).symm (f1 1 (by omega)).symm)
      (slotSat_congr (f1 0 (by omega)) (f1 1 (by omega)))).trans (k0.slotSat x)
  rw [i1] at k2 k4 k6
  rw [i2] at k8 k10
  rw [z9] at y8
  have x2 : ∀ x, SlotSat vd'.linConstr 2 x ↔ batch 128 C.enc.x1 (roundEqs P inp vd.ix x C vd'.z).enc1 = 0 := by
    intro x
    rw [mC]
    exact (Iff.intro (slotSat_congr (f2 2 (by omega)).symm (f2 3 (by omega)).symm)
      (slotSat_congr (f2 2 (by omega)) (f2 3 (by omega)))).trans (k2.slotSat x)
  have x4 : ∀ x, SlotSat vd'.linConstr 4 x ↔ batch 128 C.enc.x2 (roundEqs P inp vd.ix x C vd'.z).enc2 = 0 := by
    intro x
    rw [mC]
    exact (Iff.intro (slotSat_congr (f2 4 (by omega)).symm (f2 5 (by omega)).symm)
      (slotSat_congr (f2 4 (by omega)) (f2 5 (by omega)))).trans (k4.slotSat x)
  have x6 : ∀ x, SlotSat vd'.linConstr 6 x ↔ batch 128 C.enc.x3 (roundEqs P inp vd.ix x C vd'.z).enc3 = 0 := by
    intro x
    have k := k6.slotSat x
    rw [h6b x, zero_add] at k
    rw [mC]
    exact (Iff.intro (slotSat_congr (f2 6 (by omega)).symm (f2 7 (by omega)).symm)
      (slotSat_congr (f2 6 (by omega)) (f2 7 (by omega)))).trans k
  have x8 : ∀ x, SlotSat vd'.linConstr 8 x ↔ batch 128 C.key.x1 (roundEqs P inp vd.ix x C vd'.z).key1 = 0 := by
    intro x
    rw [mC]
    exact (Iff.intro (slotSat_congr (f5 8 (by omega)).symm (f5 9 (by omega)).symm)
      (slotSat_congr (f5 8 (by omega)) (f5 9 (by omega)))).trans (k8.slotSat x)
  have x10 : ∀ x, SlotSat vd'.linConstr 10 x ↔ batch 128 C.key.x2 (roundEqs P inp vd.ix x C vd'.z).key2 = 0 := by
    intro x
    rw [mC]
    exact (Iff.intro (slotSat_congr (f5 10 (by omega)).symm (f5 11 (by omega)).symm)
      (slotSat_congr (f5 10 (by omega)) (f5 11 (by omega)))).trans (k10.slotSat x)
  have x12 : ∀ x, SlotSat vd'.linConstr 12 x ↔ batch 64 C.smallX (roundEqs P inp vd.ix x C vd'.z).small = 0 := by
    intro x
    rw [mC]
    unfold roundEqs
    dsimp only
    have k := y8.slotSat x
    convert k using 4
  have x14 : ∀ x, (∀ j < P.H.length, ∃ c, vd'.linConstr[14 + j]? = some c ∧ LinSat c x) ↔
      ∀ y ∈ Spec.matVec P.H (resharing inp.lagrange vd.ix.pt1 vd.ix.pt2 P.gk.enn x), y = 0 := by
    intro x
    unfold Spec.matVec
    rw [i3] at q4
    constructor
    · intro hs y hy
      obtain ⟨row, hr, rfl⟩ := List.mem_map.1 hy
      obtain ⟨j, hj, rfl⟩ := List.mem_iff_getElem.1 hr
      obtain ⟨c, p1, -, -, p2⟩ := q4 j _ (List.getElem?_eq_getElem hj)
      obtain ⟨c', p3, p4⟩ := hs j hj
      rw [f14, p1] at p3
      obtain rfl := Option.some.inj p3
      exact (p2 x).1 p4
    · intro hs j hj
      obtain ⟨c, p1, -, -, p2⟩ := q4 j _ (List.getElem?_eq_getElem hj)
      exact ⟨c, by rw [f14, p1], (p2 x).2 (hs _ (List.mem_map.2 ⟨_, List.getElem_mem _, rfl⟩))⟩
  refine ⟨fun x => ?_, ?_, by rw [z8]; exact S3.normLength, y4, y7, z5, by rw [mer', mC], hre.2.1, hre.2.2.2.1⟩
  · rw [← x0, ← x2, ← x4, ← x6, ← x8, ← x10, ← x12, ← x14]
    constructor
    · intro ha
      refine ⟨slotSat_all (by omega) ha, slotSat_all (by omega) ha, slotSat_all (by omega) ha,
        slotSat_all (by omega) ha, slotSat_all (by omega) ha, slotSat_all (by omega) ha, slotSat_all (by omega) ha,
        fun j hj => ?_⟩
      have hj' : 14 + j < vd'.linConstr.length := by
        have := hre.2.2.2.2
        omega
      exact ⟨_, List.getElem?_eq_getElem hj', ha _ (List.getElem_mem _)⟩
    · rintro ⟨t0, t2, t4, t6, t8, t10, t12, t14⟩ c hc
      obtain ⟨i, hi⟩ := List.mem_iff_getElem?.1 hc
      by_cases b0 : i = 0 ∨ i = 0 + 1
      · exact slotSat_at t0 hi b0
      by_cases b2 : i = 2 ∨ i = 2 + 1
      · exact slotSat_at t2 hi b2
      by_cases b4 : i = 4 ∨ i = 4 + 1
      · exact slotSat_at t4 hi b4
      by_cases b6 : i = 6 ∨ i = 6 + 1
      · exact slotSat_at t6 hi b6
      by_cases b8 : i = 8 ∨ i = 8 + 1
      · exact slotSat_at t8 hi b8
      by_cases b10 : i = 10 ∨ i = 10 + 1
      · exact slotSat_at t10 hi b10
      by_cases b12 : i = 12 ∨ i = 12 + 1
      · exact slotSat_at t12 hi b12
      by_cases b14 : i < 14 + P.H.length
      · obtain ⟨c', p1, p2⟩ := t14 (i - 14) (by omega)
        rw [show 14 + (i - 14) = i by omega, hi] at p1
        obtain rfl := Option.some.inj p1
        exact p2
      · obtain ⟨j, rfl⟩ : ∃ j, i = 14 + j := ⟨i - 14, by omega⟩
        rw [f14, q3 _ (Or.inr (by omega)), s3.linRest _ (by simp; omega), s2.linRest _ (by simp; omega),
          s1.linRest _ (by simp; omega)] at hi
        rw [hempty c (List.mem_of_getElem? hi)]
        simp [LinSat, linLhs]
  · intro k hk
    rw [z8]
    have hN : NormInv vd.normConstr := ⟨S0.normLength, S0.norm⟩
    have hall : vd3.normConstr = normAll P vd.normConstr ([0, 1] ++ [2, 3, 4, 5, 6] ++ [7, 8, 9]) := by
      rw [normAll_append, normAll_append, s3.norm, s2.norm, s1.norm]
      rfl
    unfold NormRecorded
    rw [hall, normAll_new P _ hN (by simp; omega) hk]
    exact congrArg some (by rw [convBI_sq _ (hP.small k hk).2])

end
end Verif
