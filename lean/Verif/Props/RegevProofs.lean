/-
C43: the constraints recorded by the Regev proofs.  For each of `proveDecryption`, `proveEncryption`,
`proveKeyGen`, `proveReShare` and `proveSmallness`:

* what the recorded linear constraints say about any assignment of the variables (`_meaning`);
* that the prover's own values satisfy everything that is recorded when the inputs stand in the
  relation that is to be proved;
* when the function returns, throws, or is undefined (`_defined`).

The challenges are those that anyone can recompute from the transcript and the published commitments.
-/
import Verif.Lemmas.RegevHonest
import Verif.Lemmas.RegevFits
import Verif.Spec.RegevDemo
import Verif.Props.Shamir

namespace Verif.Props
open Spec Regev
open scoped BigOperators

section
variable {q : ℕ} [Fact q.Prime] {G : Type} [AddCommGroup G] [Module (ZMod q) G]

/-! ### Decryption -/

/-- **C43.** What the decryption constraints say about an assignment `x` of the variables: with
`noise_i(x)` the noise that makes the ciphertexts decrypt to the plaintexts in `x` with the key in `x`,
the digits in `x` put together are the products of the noise with the challenge matrix, all 128
equations batched with powers of the challenge. -/
theorem C43_decryption_meaning {E : Env (ZMod q) G} (hE : LengthOk E) {P : Params q} (hP : ParamsOk P)
    {tests : ℕ → Tests} (hT : ∀ k, NoFalsePrimes (tests k).probPrime) {fresh : Blocks (ZMod q)}
    {vd vd' : VerifierData (ZMod q) G E.St} {pd pd' : ProverData (ZMod q)} (S : Setup P vd pd)
    {ctMat : EMat q 2} {ctVec : EVec q 2} {ptxt : List (ZMod q)} {skey noise : EVec q 2}
    (hM : HasShape ctMat P.gk.kay P.gk.tee) (hV : ctVec.length = P.gk.tee)
    (hpt : ptxt.length = P.gk.tee) (hno : noise.length = P.gk.tee)
    (h : proveDecryption E P fresh tests vd pd ctMat ctVec ptxt skey noise = .ok (vd', pd'))
    (ρ : ℕ → ℕ → Elt (ZMod q) 2) (ξ : Elt (ZMod q) 2) (st : E.St)
    (hC : decChallenges E vd.mer P.gk.tee vd'.com = (ρ, ξ, st)) :
    (∀ x, SlotSat vd'.linConstr 0 x ↔
      batch 128 ξ (fun j => digits x vd.ix.dCompLo vd.ix.dCompHi P.radix j -
        ∑ i ∈ Finset.range P.gk.tee,
          decNoise P.delta P.gk.kay ctMat ctVec vd.ix.sk1 vd.ix.pt1 x i * ρ i j) = 0) ∧
    vd'.mer = st ∧ OnlyChanged vd vd' [0] [0, 1] ∧ Setup P vd' pd' := by
  obtain ⟨hi, lo, h1, h2, h3, h4, h5, h6, h7, h8⟩ := dec_run hE hP hT S hM hV hpt hno h
  rw [hC] at h3 h7
  exact ⟨h3.slotSat, h7, h1.onlyChanged h8, h1.setup S⟩

/-- **C43.** An honest decryption proof: if the ciphertexts decrypt to `ptxt` with key `skey` and noise
`noise`, then the values in the witness satisfy the recorded constraints, have exactly the recorded
norms (or the four-square search failed and was not checked), and open the commitments. -/
theorem C43_decryption {E : Env (ZMod q) G} (hE : LengthOk E) {P : Params q} (hP : ParamsOk P)
    {tests : ℕ → Tests} (hT : ∀ k, NoFalsePrimes (tests k).probPrime) {fresh : Blocks (ZMod q)}
    {vd vd' : VerifierData (ZMod q) G E.St} {pd pd' : ProverData (ZMod q)} (S : Setup P vd pd)
    {ctMat : EMat q 2} {ctVec : EVec q 2} {ptxt : List (ZMod q)} {skey noise : EVec q 2}
    (hM : HasShape ctMat P.gk.kay P.gk.tee) (hV : ctVec.length = P.gk.tee)
    (hpt : ptxt.length = P.gk.tee) (hsk : skey.length = P.gk.kay) (hno : noise.length = P.gk.tee)
    (hD : Decrypts P.delta P.gk.kay P.gk.tee ctMat ctVec ptxt skey noise)
    (h : proveDecryption E P fresh tests vd pd ctMat ctVec ptxt skey noise = .ok (vd', pd'))
    (x : ℕ → ZMod q) (hx : Agrees pd'.linWitness x) :
    SlotSat vd'.linConstr 0 x ∧
    BlockRecorded P tests vd' pd' x 0 ∧ BlockRecorded P tests vd' pd' x 1 ∧
    Reads x vd.ix.sk1 (coeffs skey) ∧ Reads x vd.ix.pt1 ptxt ∧
    vd'.com.dCompHi = comGH E.base vd.Gs vd.Hs x x vd.ix.dCompHi 256 pd'.rnd.dCompHi ∧
    vd'.com.dPadHi = comGH E.base vd.Gs vd.Hs x x vd.ix.dPadHi 4 pd'.rnd.dPadHi ∧
    vd'.com.dCompLo = comGH E.base vd.Gs vd.Hs x x vd.ix.dCompLo 256 pd'.rnd.dCompLo ∧
    vd'.com.dPadLo = comGH E.base vd.Gs vd.Hs x x vd.ix.dPadLo 4 pd'.rnd.dPadLo ∧
    vd'.com.pt1 = comG E.base vd.Gs x vd.ix.pt1 P.gk.tee pd'.rnd.pt1 := by
  obtain ⟨hi, lo, h1, h2, h3, h4, h5, h6, h7, h8⟩ := dec_run hE hP hT S hM hV hpt hno h
  have hL := lay_of S.layout
  have hW : (pairWrites [(0, hi), (1, lo)] ++ [(vd.ix.sk1, coeffs skey), (vd.ix.pt1, ptxt)]).Pairwise Apart := by
    rw [List.pairwise_append]
    refine ⟨pairWrites_apart h1.pads h1.nodup, ?_, ?_⟩
    · simp only [List.pairwise_cons, List.mem_singleton, forall_eq, List.not_mem_nil, false_imp_iff,
        implies_true, List.Pairwise.nil, and_true]
      left
      simp only [coeffs_length, hsk, hL.pt1]
      rcases hL.sk with h | h <;> omega
    · intro a ha b hb
      have := pairWrites_below h1.pads a ha
      left
      simp only [List.mem_cons, List.not_mem_nil, or_false] at hb
      rcases hb with rfl | rfl
      · rcases hL.sk with h | h <;> simp only [h.1, h.2] <;> omega
      · simp only [hL.pt1]; omega
  have hr := h1.reads S hW hx
  have r1 := hr (vd.ix.sk1, coeffs skey) (by simp)
  have r2 := hr (vd.ix.pt1, ptxt) (by simp)
  have b0 := h1.pads (0, hi) (by simp)
  have b1 := h1.pads (1, lo) (by simp)
  refine ⟨(h3.slotSat x).2 (batch_zero fun j hj => ?_), h1.blocks S hP hr (p := (0, hi)) (by simp),
    h1.blocks S hP hr (p := (1, lo)) (by simp), r1, r2, h4 x hr⟩
  rw [hL.dCompLo, hL.dCompHi,
    digits_reads (hr (260 * 1, coeffs lo.comp) (by simp [pairWrites]))
      (hr (260 * 0, coeffs hi.comp) (by simp [pairWrites])) (by rw [b1.2.1]; exact hj)
      (by rw [b0.2.1]; exact hj), h2 j hj, sub_eq_zero]
  exact sum_range_congr fun i hi => by rw [decNoise_eq hD hsk hpt r1 r2 hi]

/-- **C43.** When a decryption proof can be made: with inputs of the right lengths, exactly if the high
digits of the noise times the challenge matrix fit their bound; otherwise an exception is thrown, and
nothing is undefined.  (`c` is the commitment to the plaintexts.) -/
theorem C43_decryption_defined {E : Env (ZMod q) G} (hE : LengthOk E) {P : Params q} (hP : ParamsOk P)
    {tests : ℕ → Tests} (hT : ∀ k, NoFalsePrimes (tests k).probPrime) {fresh : Blocks (ZMod q)}
    {vd : VerifierData (ZMod q) G E.St} {pd : ProverData (ZMod q)} (S : Setup P vd pd)
    {ctMat : EMat q 2} {ctVec : EVec q 2} {ptxt : List (ZMod q)} {skey noise : EVec q 2}
    (hM : HasShape ctMat P.gk.kay P.gk.tee) (hV : ctVec.length = P.gk.tee)
    (hpt : ptxt.length = P.gk.tee) (hno : noise.length = P.gk.tee)
    (c : G) (hc : c = fresh.pt1 • E.base + mexp ptxt (vd.Gs.drop vd.ix.pt1)) :
    ∃ hi lo, breakTwoDigits (compressLeft P.gk.tee 128 noise
        (decChallenges E vd.mer P.gk.tee { vd.com with pt1 := c }).1) P.radix = .ok (hi, lo) ∧
      (Fits P 0 hi → ∃ r, proveDecryption E P fresh tests vd pd ctMat ctVec ptxt skey noise = .ok r) ∧
      (¬ Fits P 0 hi → proveDecryption E P fresh tests vd pd ctMat ctVec ptxt skey noise = .throw) :=
  dec_total hE hP hT S hM hV hpt hno c hc

/-- **C43.** A prover whose noise is small enough always succeeds, whatever the challenges are. -/
theorem C43_decryption_small {E : Env (ZMod q) G} (hE : LengthOk E) {P : Params q} (hP : ParamsOk P)
    {tests : ℕ → Tests} (hT : ∀ k, NoFalsePrimes (tests k).probPrime) {fresh : Blocks (ZMod q)}
    {vd : VerifierData (ZMod q) G E.St} {pd : ProverData (ZMod q)} (S : Setup P vd pd)
    {ctMat : EMat q 2} {ctVec : EVec q 2} {ptxt : List (ZMod q)} {skey noise : EVec q 2}
    (hM : HasShape ctMat P.gk.kay P.gk.tee) (hV : ctVec.length = P.gk.tee)
    (hpt : ptxt.length = P.gk.tee) (hno : noise.length = P.gk.tee)
    (hs : 8 * (2 * l1 noise + P.radix) ≤ P.radix * normBound P 0) :
    ∃ r, proveDecryption E P fresh tests vd pd ctMat ctVec ptxt skey noise = .ok r := by
  obtain ⟨hi, lo, h1, h2, -⟩ := dec_total hE hP hT S hM hV hpt hno _ rfl (skey := skey) (fresh := fresh)
  exact h2 (fits_hi hP (below_left hno (isTernary_ternaryOf _ _ _) 128) (by simp [compressLeft]) h1 hs)

/-- Ciphertexts under a nonzero key with nonzero noise: the hypotheses of the theorems hold, and the
proof can be made. -/
example : ∃ r, proveDecryption demoE demoP demoRnd demoTests demoV demoD demoCtMat demoCtVec demoPt1 demoSk
    demoNoise2 = .ok r :=
  C43_decryption_small demoE_length demoP_ok demoTests_ok demo_setup demoCtMat_shape (by simp [demoCtVec, demoP, demoGk])
    rfl rfl (by decide +kernel)

example : Decrypts demoP.delta demoP.gk.kay demoP.gk.tee demoCtMat demoCtVec demoPt1 demoSk demoNoise2 := demo_decrypts

/-! ### Encryption -/

/-- **C43.** What the encryption constraints say about an assignment `x` of the variables.  The third
pair of constraints is not cleared before use: whatever terms it held stay in it (`slotLhs`). -/
theorem C43_encryption_meaning {E : Env (ZMod q) G} (hE : LengthOk E) {P : Params q} (hP : ParamsOk P)
    {tests : ℕ → Tests} (hT : ∀ k, NoFalsePrimes (tests k).probPrime) {fresh : Blocks (ZMod q)}
    {vd vd' : VerifierData (ZMod q) G E.St} {pd pd' : ProverData (ZMod q)} (S : Setup P vd pd)
    (h6 : SlotOk vd.linConstr 6 vd.ix.w)
    {ct1 ct2 : EVec q 2} {ptxt : List (ZMod q)} {rnd noise1 noise2 : EVec q 2}
    (hc1 : ct1.length = P.gk.kay) (hc2 : ct2.length = P.gk.enn)
    (hpt : ptxt.length = P.gk.enn) (hr : rnd.length = P.gk.kay)
    (hn1 : noise1.length = P.gk.kay) (hn2 : noise2.length = P.gk.enn)
    (h : proveEncryption E P fresh tests vd pd ct1 ct2 ptxt rnd noise1 noise2 = .ok (vd', pd'))
    (C : EncChallenges q E.St) (hC : encChallenges E vd.mer P.gk.kay P.gk.enn vd'.com = C) :
    (∀ x, SlotSat vd'.linConstr 2 x ↔
      batch 128 C.x1 (fun j => digits x vd.ix.eComp1Lo vd.ix.eComp1Hi P.radix j -
        ∑ i ∈ Finset.range P.gk.kay, C.R1 j i * encNoise1 P.gk.kay P.gk.A ct1 vd.ix.r x i) = 0) ∧
    (∀ x, SlotSat vd'.linConstr 4 x ↔
      batch 128 C.x2 (fun j => digits x vd.ix.eComp2Lo vd.ix.eComp2Hi P.radix j -
        ∑ i ∈ Finset.range P.gk.enn,
          C.R2 j i * encNoise2 P.delta P.gk.kay P.gk.B ct2 vd.ix.r vd.ix.pt2 x i) = 0) ∧
    (∀ x, SlotSat vd'.linConstr 6 x ↔
      slotLhs vd.linConstr 6 x + batch 128 C.x3 (fun j => eltAt x vd.ix.rComp j -
        ∑ i ∈ Finset.range P.gk.kay, C.R3 j i * eltAt x vd.ix.r i) = 0) ∧
    vd'.mer = C.st ∧ OnlyChanged vd vd' [2, 4, 6] [2, 3, 4, 5, 6] ∧ Setup P vd' pd' := by
  obtain ⟨r, hi1, lo1, hi2, lo2, C', hC', h1, g1, g2, g3, k1, k2, k3, o, c1, c2, m, z⟩ :=
    enc_run hE hP hT S h6 hc1 hc2 hpt hr hn1 hn2 h
  rw [hC] at hC'
  subst hC'
  exact ⟨k1.slotSat, k2.slotSat, k3.slotSat, m, h1.onlyChanged z, h1.setup S⟩

/-- **C43.** An honest encryption proof: if `ct1 = A·r + noise1` and `ct2 = B·r + ptxt·g + noise2`, and the
third pair of constraints was empty, then the values in the witness satisfy the recorded constraints,
have exactly the recorded norms (or the four-square search failed), and open the commitments. -/
theorem C43_encryption {E : Env (ZMod q) G} (hE : LengthOk E) {P : Params q} (hP : ParamsOk P)
    {tests : ℕ → Tests} (hT : ∀ k, NoFalsePrimes (tests k).probPrime) {fresh : Blocks (ZMod q)}
    {vd vd' : VerifierData (ZMod q) G E.St} {pd pd' : ProverData (ZMod q)} (S : Setup P vd pd)
    (h6 : SlotOk vd.linConstr 6 vd.ix.w) (h6' : ∀ x, slotLhs vd.linConstr 6 x = 0)
    {ct1 ct2 : EVec q 2} {ptxt : List (ZMod q)} {rnd noise1 noise2 : EVec q 2}
    (hc1 : ct1.length = P.gk.kay) (hc2 : ct2.length = P.gk.enn)
    (hpt : ptxt.length = P.gk.enn) (hr : rnd.length = P.gk.kay)
    (hn1 : noise1.length = P.gk.kay) (hn2 : noise2.length = P.gk.enn)
    (hD1 : Encrypts1 P.gk.kay P.gk.A ct1 rnd noise1)
    (hD2 : Encrypts2 P.delta P.gk.kay P.gk.enn P.gk.B ct2 ptxt rnd noise2)
    (h : proveEncryption E P fresh tests vd pd ct1 ct2 ptxt rnd noise1 noise2 = .ok (vd', pd'))
    (x : ℕ → ZMod q) (hx : Agrees pd'.linWitness x) :
    SlotSat vd'.linConstr 2 x ∧ SlotSat vd'.linConstr 4 x ∧ SlotSat vd'.linConstr 6 x ∧
    (∀ k ∈ [2, 3, 4, 5, 6], BlockRecorded P tests vd' pd' x k) ∧
    Reads x vd.ix.r (coeffs rnd) ∧ Reads x vd.ix.pt2 ptxt ∧
    vd'.com.rComp = comGH E.base vd.Gs vd.Hs x x vd.ix.rComp 256 pd'.rnd.rComp ∧
    vd'.com.rPad = comGH E.base vd.Gs vd.Hs x x vd.ix.rPad 4 pd'.rnd.rPad ∧
    vd'.com.eComp1Hi = comGH E.base vd.Gs vd.Hs x x vd.ix.eComp1Hi 256 pd'.rnd.eComp1Hi ∧
    vd'.com.ePad1Hi = comGH E.base vd.Gs vd.Hs x x vd.ix.ePad1Hi 4 pd'.rnd.ePad1Hi ∧
    vd'.com.eComp1Lo = comGH E.base vd.Gs vd.Hs x x vd.ix.eComp1Lo 256 pd'.rnd.eComp1Lo ∧
    vd'.com.ePad1Lo = comGH E.base vd.Gs vd.Hs x x vd.ix.ePad1Lo 4 pd'.rnd.ePad1Lo ∧
    vd'.com.eComp2Hi = comGH E.base vd.Gs vd.Hs x x vd.ix.eComp2Hi 256 pd'.rnd.eComp2Hi ∧
    vd'.com.ePad2Hi = comGH E.base vd.Gs vd.Hs x x vd.ix.ePad2Hi 4 pd'.rnd.ePad2Hi ∧
    vd'.com.eComp2Lo = comGH E.base vd.Gs vd.Hs x x vd.ix.eComp2Lo 256 pd'.rnd.eComp2Lo ∧
    vd'.com.ePad2Lo = comGH E.base vd.Gs vd.Hs x x vd.ix.ePad2Lo 4 pd'.rnd.ePad2Lo ∧
    vd'.com.r = comG E.base vd.Gs x vd.ix.r (P.gk.kay * 2) pd'.rnd.r ∧
    vd'.com.pt2 = comG E.base vd.Gs x vd.ix.pt2 P.gk.enn pd'.rnd.pt2 := by
  obtain ⟨r, hi1, lo1, hi2, lo2, C, hC, h1, g1, g2, g3, k1, k2, k3, o, c1, c2, m, z⟩ :=
    enc_run hE hP hT S h6 hc1 hc2 hpt hr hn1 hn2 h
  have hL := lay_of S.layout
  have hW : (pairWrites [(2, r), (3, hi1), (4, lo1), (5, hi2), (6, lo2)] ++
      [(vd.ix.r, coeffs rnd), (vd.ix.pt2, ptxt)]).Pairwise Apart := by
    rw [List.pairwise_append]
    refine ⟨pairWrites_apart h1.pads h1.nodup, ?_, ?_⟩
    · simp only [List.pairwise_cons, List.mem_singleton, forall_eq, List.not_mem_nil, false_imp_iff,
        implies_true, List.Pairwise.nil, and_true]
      left
      simp only [coeffs_length, hr, hL.pt2, hL.r]
      omega
    · intro a ha b hb
      have := pairWrites_below h1.pads a ha
      left
      simp only [List.mem_cons, List.not_mem_nil, or_false] at hb
      rcases hb with rfl | rfl
      · simp only [hL.r]; omega
      · simp only [hL.pt2]; omega
  have hrd := h1.reads S hW hx
  have r1 := hrd (vd.ix.r, coeffs rnd) (by simp)
  have r2 := hrd (vd.ix.pt2, ptxt) (by simp)
  have b2 := (h1.pads (2, r) (by simp)).2.1
  have b3 := (h1.pads (3, hi1) (by simp)).2.1
  have b4 := (h1.pads (4, lo1) (by simp)).2.1
  have b5 := (h1.pads (5, hi2) (by simp)).2.1
  have b6 := (h1.pads (6, lo2) (by simp)).2.1
  refine ⟨(k1.slotSat x).2 (batch_zero fun j hj => ?_), (k2.slotSat x).2 (batch_zero fun j hj => ?_),
    (k3.slotSat x).2 ?_, ?_, r1, r2, o x hrd⟩
  · rw [hL.eComp1Lo, hL.eComp1Hi,
      digits_reads (hrd (260 * 4, coeffs lo1.comp) (by simp [pairWrites]))
        (hrd (260 * 3, coeffs hi1.comp) (by simp [pairWrites])) (by rw [b4]; exact hj)
        (by rw [b3]; exact hj), g1 j hj, sub_eq_zero]
    exact sum_range_congr fun i hi => by rw [encNoise1_eq hD1 hr r1 hi]
  · rw [hL.eComp2Lo, hL.eComp2Hi,
      digits_reads (hrd (260 * 6, coeffs lo2.comp) (by simp [pairWrites]))
        (hrd (260 * 5, coeffs hi2.comp) (by simp [pairWrites])) (by rw [b6]; exact hj)
        (by rw [b5]; exact hj), g2 j hj, sub_eq_zero]
    exact sum_range_congr fun i hi => by rw [encNoise2_eq hD2 hr hpt r1 r2 hi]
  · rw [h6', zero_add]
    refine batch_zero fun j hj => ?_
    have e : eltAt x (260 * 2) j = r.comp.getD j 0 :=
      Reads.elt (hrd (260 * 2, coeffs r.comp) (by simp [pairWrites])) j (by rw [b2]; exact hj)
    rw [hL.rComp, e, g3 j hj, sub_eq_zero]
    exact sum_range_congr fun i hi => by rw [r1.elt i (by omega)]
  · intro k hk
    simp only [List.mem_cons, List.not_mem_nil, or_false] at hk
    rcases hk with rfl | rfl | rfl | rfl | rfl
    · exact h1.blocks S hP hrd (p := (2, r)) (by simp)
    · exact h1.blocks S hP hrd (p := (3, hi1)) (by simp)
    · exact h1.blocks S hP hrd (p := (4, lo1)) (by simp)
    · exact h1.blocks S hP hrd (p := (5, hi2)) (by simp)
    · exact h1.blocks S hP hrd (p := (6, lo2)) (by simp)

/-- **C43, disagreement with the code.** The third pair of constraints is not cleared: if it already
held constraints, an honest prover's values satisfy it only if they also satisfy the homogeneous part of
the old ones. -/
theorem C43_encryption_stale {E : Env (ZMod q) G} (hE : LengthOk E) {P : Params q} (hP : ParamsOk P)
    {tests : ℕ → Tests} (hT : ∀ k, NoFalsePrimes (tests k).probPrime) {fresh : Blocks (ZMod q)}
    {vd vd' : VerifierData (ZMod q) G E.St} {pd pd' : ProverData (ZMod q)} (S : Setup P vd pd)
    (h6 : SlotOk vd.linConstr 6 vd.ix.w)
    {ct1 ct2 : EVec q 2} {ptxt : List (ZMod q)} {rnd noise1 noise2 : EVec q 2}
    (hc1 : ct1.length = P.gk.kay) (hc2 : ct2.length = P.gk.enn)
    (hpt : ptxt.length = P.gk.enn) (hr : rnd.length = P.gk.kay)
    (hn1 : noise1.length = P.gk.kay) (hn2 : noise2.length = P.gk.enn)
    (h : proveEncryption E P fresh tests vd pd ct1 ct2 ptxt rnd noise1 noise2 = .ok (vd', pd'))
    (x : ℕ → ZMod q) (hx : Agrees pd'.linWitness x) :
    SlotSat vd'.linConstr 6 x ↔ slotLhs vd.linConstr 6 x = 0 := by
  obtain ⟨r, hi1, lo1, hi2, lo2, C, hC, h1, g1, g2, g3, k1, k2, k3, o, c1, c2, m, z⟩ :=
    enc_run hE hP hT S h6 hc1 hc2 hpt hr hn1 hn2 h
  have hL := lay_of S.layout
  have hW : (pairWrites [(2, r), (3, hi1), (4, lo1), (5, hi2), (6, lo2)] ++
      [(vd.ix.r, coeffs rnd), (vd.ix.pt2, ptxt)]).Pairwise Apart := by
    rw [List.pairwise_append]
    refine ⟨pairWrites_apart h1.pads h1.nodup, ?_, ?_⟩
    · simp only [List.pairwise_cons, List.mem_singleton, forall_eq, List.not_mem_nil, false_imp_iff,
        implies_true, List.Pairwise.nil, and_true]
      left
      simp only [coeffs_length, hr, hL.pt2, hL.r]
      omega
    · intro a ha b hb
      have := pairWrites_below h1.pads a ha
      left
      simp only [List.mem_cons, List.not_mem_nil, or_false] at hb
      rcases hb with rfl | rfl
      · simp only [hL.r]; omega
      · simp only [hL.pt2]; omega
  have hrd := h1.reads S hW hx
  have r1 := hrd (vd.ix.r, coeffs rnd) (by simp)
  have b2 := (h1.pads (2, r) (by simp)).2.1
  rw [k3.slotSat x, batch_zero, add_zero]
  intro j hj
  have e : eltAt x (260 * 2) j = r.comp.getD j 0 :=
    Reads.elt (hrd (260 * 2, coeffs r.comp) (by simp [pairWrites])) j (by rw [b2]; exact hj)
  rw [hL.rComp, e, g3 j hj, sub_eq_zero]
  exact sum_range_congr fun i hi => by rw [r1.elt i (by omega)]

/-- **C43.** When an encryption proof can be made: the dimensions must be multiples of 4, otherwise the
challenge matrices are read past the end of the challenge bytes; then it succeeds exactly if the products
of the randomness and the noises with the challenge matrices fit their bounds, and otherwise throws. -/
theorem C43_encryption_defined {E : Env (ZMod q) G} (hE : LengthOk E) {P : Params q} (hP : ParamsOk P)
    {tests : ℕ → Tests} (hT : ∀ k, NoFalsePrimes (tests k).probPrime) {fresh : Blocks (ZMod q)}
    {vd : VerifierData (ZMod q) G E.St} {pd : ProverData (ZMod q)} (S : Setup P vd pd)
    (h6 : SlotOk vd.linConstr 6 vd.ix.w)
    {ct1 ct2 : EVec q 2} {ptxt : List (ZMod q)} {rnd noise1 noise2 : EVec q 2}
    (hc1 : ct1.length = P.gk.kay) (hc2 : ct2.length = P.gk.enn)
    (hpt : ptxt.length = P.gk.enn) (hr : rnd.length = P.gk.kay)
    (hn1 : noise1.length = P.gk.kay) (hn2 : noise2.length = P.gk.enn)
    (c d : G) (hc : c = fresh.pt2 • E.base + mexp ptxt (vd.Gs.drop vd.ix.pt2))
    (hd : d = fresh.r • E.base + mexp (coeffs rnd) (vd.Gs.drop vd.ix.r))
    (C : EncChallenges q E.St)
    (hC : C = encChallenges E vd.mer P.gk.kay P.gk.enn { vd.com with pt2 := c, r := d }) :
    (¬ (4 ∣ P.gk.kay ∧ 4 ∣ P.gk.enn) →
      proveEncryption E P fresh tests vd pd ct1 ct2 ptxt rnd noise1 noise2 = .ub) ∧
    (4 ∣ P.gk.kay ∧ 4 ∣ P.gk.enn → ∃ hi1 lo1 hi2 lo2,
      breakTwoDigits (compressRight 128 P.gk.kay C.R1 noise1) P.radix = .ok (hi1, lo1) ∧
      breakTwoDigits (compressRight 128 P.gk.enn C.R2 noise2) P.radix = .ok (hi2, lo2) ∧
      (Fits P 2 (compressRight 128 P.gk.kay C.R3 rnd) ∧ Fits P 3 hi1 ∧ Fits P 5 hi2 →
        ∃ r, proveEncryption E P fresh tests vd pd ct1 ct2 ptxt rnd noise1 noise2 = .ok r) ∧
      (¬ (Fits P 2 (compressRight 128 P.gk.kay C.R3 rnd) ∧ Fits P 3 hi1 ∧ Fits P 5 hi2) →
        proveEncryption E P fresh tests vd pd ct1 ct2 ptxt rnd noise1 noise2 = .throw)) :=
  enc_total hE hP hT S h6 hc1 hc2 hpt hr hn1 hn2 c d hc hd C hC

/-- **C43.** A prover whose randomness and noises are small enough always succeeds, whatever the
challenges are. -/
theorem C43_encryption_small {E : Env (ZMod q) G} (hE : LengthOk E) {P : Params q} (hP : ParamsOk P)
    {tests : ℕ → Tests} (hT : ∀ k, NoFalsePrimes (tests k).probPrime) {fresh : Blocks (ZMod q)}
    {vd : VerifierData (ZMod q) G E.St} {pd : ProverData (ZMod q)} (S : Setup P vd pd)
    (h6 : SlotOk vd.linConstr 6 vd.ix.w)
    {ct1 ct2 : EVec q 2} {ptxt : List (ZMod q)} {rnd noise1 noise2 : EVec q 2}
    (hc1 : ct1.length = P.gk.kay) (hc2 : ct2.length = P.gk.enn)
    (hpt : ptxt.length = P.gk.enn) (hr : rnd.length = P.gk.kay)
    (hn1 : noise1.length = P.gk.kay) (hn2 : noise2.length = P.gk.enn)
    (h4 : 4 ∣ P.gk.kay ∧ 4 ∣ P.gk.enn) (hs0 : 16 * l1 rnd ≤ normBound P 2)
    (hs1 : 8 * (2 * l1 noise1 + P.radix) ≤ P.radix * normBound P 3)
    (hs2 : 8 * (2 * l1 noise2 + P.radix) ≤ P.radix * normBound P 5) :
    ∃ r, proveEncryption E P fresh tests vd pd ct1 ct2 ptxt rnd noise1 noise2 = .ok r := by
  obtain ⟨hi1, lo1, hi2, lo2, h1, h2, h3, -⟩ := (enc_total hE hP hT S h6 hc1 hc2 hpt hr hn1 hn2 _ _ rfl rfl _ rfl
    (fresh := fresh)).2 h4
  exact h3 ⟨fits_of_l1 (below_right hr (isTernary_ternaryOf _ _ _) 128) (by simp [compressRight]) hs0,
    fits_hi hP (below_right hn1 (isTernary_ternaryOf _ _ _) 128) (by simp [compressRight]) h1 hs1,
    fits_hi hP (below_right hn2 (isTernary_ternaryOf _ _ _) 128) (by simp [compressRight]) h2 hs2⟩

/-- An encryption of nonzero plaintexts with nonzero randomness and noise. -/
example : ∃ r, proveEncryption demoE demoP demoRnd demoTests demoV demoD demoCt1 demoCt2 demoPt2 demoR
    demoNoise4 demoNoise4 = .ok r :=
  C43_encryption_small demoE_length demoP_ok demoTests_ok demo_setup demo_slot (by simp [demoCt1, demoP, demoGk])
    (by simp [demoCt2, demoP, demoGk]) rfl rfl rfl rfl (by decide) (by decide +kernel) (by decide +kernel)
    (by decide +kernel)

example : Encrypts1 demoP.gk.kay demoP.gk.A demoCt1 demoR demoNoise4 ∧
    Encrypts2 demoP.delta demoP.gk.kay demoP.gk.enn demoP.gk.B demoCt2 demoPt2 demoR demoNoise4 ∧
    ∀ x, slotLhs demoV.linConstr 6 x = 0 := ⟨demo_encrypts1, demo_encrypts2, demo_slot_zero⟩

/-! ### Key generation -/

/-- **C43.** What the key-generation constraints say about an assignment `x` of the variables. -/
theorem C43_keygen_meaning {E : Env (ZMod q) G} (hE : LengthOk E) {P : Params q} (hP : ParamsOk P)
    {tests : ℕ → Tests} (hT : ∀ k, NoFalsePrimes (tests k).probPrime) {fresh : Blocks (ZMod q)}
    {vd vd' : VerifierData (ZMod q) G E.St} {pd pd' : ProverData (ZMod q)} (S : Setup P vd pd)
    {pkNum : ℕ} {skey noise : EVec q 2} (hs : skey.length = P.gk.kay) (hno : noise.length = P.gk.kay)
    (h : proveKeyGen E P fresh tests vd pd pkNum skey noise = .ok (vd', pd'))
    (C : KeyChallenges q E.St) (hC : keyChallenges E vd.mer P.gk.kay vd'.com = C) :
    (∀ x, SlotSat vd'.linConstr 8 x ↔
      batch 128 C.x1 (fun j => digits x vd.ix.kCompLo vd.ix.kCompHi P.radix j -
        ∑ i ∈ Finset.range P.gk.kay,
          keyNoise P.gk.kay P.gk.A (P.gk.B.getD pkNum []) vd.ix.sk2 x i * C.R1 i j) = 0) ∧
    (∀ x, SlotSat vd'.linConstr 10 x ↔
      batch 128 C.x2 (fun j => eltAt x vd.ix.sk2Comp j -
        ∑ i ∈ Finset.range P.gk.kay, eltAt x vd.ix.sk2 i * C.R2 i j) = 0) ∧
    pkNum < P.gk.enn ∧ vd'.mer = C.st ∧ OnlyChanged vd vd' [8, 10] [7, 8, 9] ∧ Setup P vd' pd' := by
  obtain ⟨sk, hi, lo, C', hC', h1, g1, g2, hpk, k1, k2, o, c1, c2, m, z⟩ := key_run hE hP hT S hs hno h
  rw [hC] at hC'
  subst hC'
  exact ⟨k1.slotSat, k2.slotSat, hpk, m, h1.onlyChanged z, h1.setup S⟩

/-- **C43.** An honest key-generation proof: if the public key is `sk·A + noise`, then the values in the
witness satisfy the recorded constraints, have exactly the recorded norms (or the four-square search
failed), and open the commitments. -/
theorem C43_keygen {E : Env (ZMod q) G} (hE : LengthOk E) {P : Params q} (hP : ParamsOk P)
    {tests : ℕ → Tests} (hT : ∀ k, NoFalsePrimes (tests k).probPrime) {fresh : Blocks (ZMod q)}
    {vd vd' : VerifierData (ZMod q) G E.St} {pd pd' : ProverData (ZMod q)} (S : Setup P vd pd)
    {pkNum : ℕ} {skey noise : EVec q 2} (hs : skey.length = P.gk.kay) (hno : noise.length = P.gk.kay)
    (hD : KeyFor P.gk.kay P.gk.A (P.gk.B.getD pkNum []) skey noise)
    (h : proveKeyGen E P fresh tests vd pd pkNum skey noise = .ok (vd', pd'))
    (x : ℕ → ZMod q) (hx : Agrees pd'.linWitness x) :
    SlotSat vd'.linConstr 8 x ∧ SlotSat vd'.linConstr 10 x ∧
    (∀ k ∈ [7, 8, 9], BlockRecorded P tests vd' pd' x k) ∧ Reads x vd.ix.sk2 (coeffs skey) ∧
    vd'.com.sk2Comp = comGH E.base vd.Gs vd.Hs x x vd.ix.sk2Comp 256 pd'.rnd.sk2Comp ∧
    vd'.com.sk2Pad = comGH E.base vd.Gs vd.Hs x x vd.ix.sk2Pad 4 pd'.rnd.sk2Pad ∧
    vd'.com.kCompHi = comGH E.base vd.Gs vd.Hs x x vd.ix.kCompHi 256 pd'.rnd.kCompHi ∧
    vd'.com.kPadHi = comGH E.base vd.Gs vd.Hs x x vd.ix.kPadHi 4 pd'.rnd.kPadHi ∧
    vd'.com.kCompLo = comGH E.base vd.Gs vd.Hs x x vd.ix.kCompLo 256 pd'.rnd.kCompLo ∧
    vd'.com.kPadLo = comGH E.base vd.Gs vd.Hs x x vd.ix.kPadLo 4 pd'.rnd.kPadLo ∧
    vd'.com.sk2 = comG E.base vd.Gs x vd.ix.sk2 (P.gk.kay * 2) pd'.rnd.sk2 := by
  obtain ⟨sk, hi, lo, C, hC, h1, g1, g2, hpk, k1, k2, o, c1, c2, m, z⟩ := key_run hE hP hT S hs hno h
  have hL := lay_of S.layout
  have hW : ((vd.ix.sk2, coeffs skey) :: pairWrites [(7, sk), (8, hi), (9, lo)]).Pairwise Apart := by
    rw [List.pairwise_cons]
    refine ⟨?_, pairWrites_apart h1.pads h1.nodup⟩
    intro a ha
    have := pairWrites_below h1.pads a ha
    right
    rcases hL.sk with h | h <;> simp only [h.1, h.2] <;> omega
  have hrd := h1.reads S hW hx
  have r1 := hrd (vd.ix.sk2, coeffs skey) (by simp)
  have b7 := (h1.pads (7, sk) (by simp)).2.1
  have b8 := (h1.pads (8, hi) (by simp)).2.1
  have b9 := (h1.pads (9, lo) (by simp)).2.1
  refine ⟨(k1.slotSat x).2 (batch_zero fun j hj => ?_), (k2.slotSat x).2 (batch_zero fun j hj => ?_),
    ?_, r1, o x hrd⟩
  · rw [hL.kCompLo, hL.kCompHi,
      digits_reads (hrd (260 * 9, coeffs lo.comp) (by simp [pairWrites]))
        (hrd (260 * 8, coeffs hi.comp) (by simp [pairWrites])) (by rw [b9]; exact hj)
        (by rw [b8]; exact hj), g1 j hj, sub_eq_zero]
    exact sum_range_congr fun i hi => by rw [keyNoise_eq hD hs r1 hi]
  · have e : eltAt x (260 * 7) j = sk.comp.getD j 0 :=
      Reads.elt (hrd (260 * 7, coeffs sk.comp) (by simp [pairWrites])) j (by rw [b7]; exact hj)
    rw [hL.sk2Comp, e, g2 j hj, sub_eq_zero]
    exact sum_range_congr fun i hi => by rw [r1.elt i (by omega)]
  · intro k hk
    simp only [List.mem_cons, List.not_mem_nil, or_false] at hk
    rcases hk with rfl | rfl | rfl
    · exact h1.blocks S hP hrd (p := (7, sk)) (by simp)
    · exact h1.blocks S hP hrd (p := (8, hi)) (by simp)
    · exact h1.blocks S hP hrd (p := (9, lo)) (by simp)

/-- **C43.** When a key-generation proof can be made: exactly if the products of the key and the noise with
the challenge matrices fit their bounds (otherwise an exception is thrown) and the public key is there
(otherwise a row past the end of the matrix is read). -/
theorem C43_keygen_defined {E : Env (ZMod q) G} (hE : LengthOk E) {P : Params q} (hP : ParamsOk P)
    {tests : ℕ → Tests} (hT : ∀ k, NoFalsePrimes (tests k).probPrime) {fresh : Blocks (ZMod q)}
    {vd : VerifierData (ZMod q) G E.St} {pd : ProverData (ZMod q)} (S : Setup P vd pd)
    {pkNum : ℕ} {skey noise : EVec q 2} (hs : skey.length = P.gk.kay) (hno : noise.length = P.gk.kay)
    (c : G) (hc : c = fresh.sk2 • E.base + mexp (coeffs skey) (vd.Gs.drop vd.ix.sk2))
    (C : KeyChallenges q E.St) (hC : C = keyChallenges E vd.mer P.gk.kay { vd.com with sk2 := c }) :
    ∃ hi lo, breakTwoDigits (compressLeft P.gk.kay 128 noise C.R1) P.radix = .ok (hi, lo) ∧
      (¬ (Fits P 7 (compressLeft P.gk.kay 128 skey C.R2) ∧ Fits P 8 hi) →
        proveKeyGen E P fresh tests vd pd pkNum skey noise = .throw) ∧
      (Fits P 7 (compressLeft P.gk.kay 128 skey C.R2) ∧ Fits P 8 hi →
        (pkNum < P.gk.enn → ∃ r, proveKeyGen E P fresh tests vd pd pkNum skey noise = .ok r) ∧
        (P.gk.enn ≤ pkNum → proveKeyGen E P fresh tests vd pd pkNum skey noise = .ub)) :=
  key_total hE hP hT S hs hno c hc C hC

/-- **C43.** A prover whose key and noise are small enough always succeeds, whatever the challenges are. -/
theorem C43_keygen_small {E : Env (ZMod q) G} (hE : LengthOk E) {P : Params q} (hP : ParamsOk P)
    {tests : ℕ → Tests} (hT : ∀ k, NoFalsePrimes (tests k).probPrime) {fresh : Blocks (ZMod q)}
    {vd : VerifierData (ZMod q) G E.St} {pd : ProverData (ZMod q)} (S : Setup P vd pd)
    {pkNum : ℕ} {skey noise : EVec q 2} (hs : skey.length = P.gk.kay) (hno : noise.length = P.gk.kay)
    (hpk : pkNum < P.gk.enn) (hs0 : 16 * l1 skey ≤ normBound P 7)
    (hs1 : 8 * (2 * l1 noise + P.radix) ≤ P.radix * normBound P 8) :
    ∃ r, proveKeyGen E P fresh tests vd pd pkNum skey noise = .ok r := by
  obtain ⟨hi, lo, h1, -, h2⟩ := key_total hE hP hT S hs hno _ rfl _ rfl (fresh := fresh) (pkNum := pkNum)
  exact (h2 ⟨fits_of_l1 (below_left hs (isTernary_ternaryOf _ _ _) 128) (by simp [compressLeft]) hs0,
    fits_hi hP (below_left hno (isTernary_ternaryOf _ _ _) 128) (by simp [compressLeft]) h1 hs1⟩).1 hpk

/-- A nonzero key with nonzero noise. -/
example : ∃ r, proveKeyGen demoE demoP demoRnd demoTests demoV demoD 1 demoSk demoNoise4 = .ok r :=
  C43_keygen_small demoE_length demoP_ok demoTests_ok demo_setup rfl rfl (by decide) (by decide +kernel)
    (by decide +kernel)

example : KeyFor demoP.gk.kay demoP.gk.A (demoP.gk.B.getD 1 []) demoSk demoNoise4 := demo_keyfor

/-! ### Re-sharing -/

/-- **C43.** What the resharing constraints say: an assignment satisfies all of them iff the parity-check
matrix sends the secret reconstructed from the old shares, followed by the new shares, to zero.  With
vectors of other lengths the function throws. -/
theorem C43_reshare_meaning {St : Type} {P : Params q} {vd : VerifierData (ZMod q) G St}
    {pd : ProverData (ZMod q)} {lagrange pt1 pt2 : List (ZMod q)} :
    (pt1.length = P.gk.tee ∧ lagrange.length = P.gk.tee ∧ pt2.length = P.gk.enn ∧
      (∀ row ∈ P.H, row.length = 1 + P.gk.enn) ∧ 14 + P.H.length ≤ vd.linConstr.length →
      ∃ lin, proveReShare P vd pd lagrange pt1 pt2 = .ok ({ vd with linConstr := lin }, pd) ∧
        lin.length = vd.linConstr.length ∧
        (∀ j, (j < 14 ∨ 14 + P.H.length ≤ j) → lin[j]? = vd.linConstr[j]?) ∧
        ∀ x, (∀ j < P.H.length, ∃ c, lin[14 + j]? = some c ∧ LinSat c x) ↔
          ∀ y ∈ Spec.matVec P.H (resharing lagrange vd.ix.pt1 vd.ix.pt2 P.gk.enn x), y = 0) ∧
    (¬ (pt1.length = P.gk.tee ∧ lagrange.length = P.gk.tee ∧ pt2.length = P.gk.enn ∧
      (∀ row ∈ P.H, row.length = 1 + P.gk.enn) ∧ 14 + P.H.length ≤ vd.linConstr.length) →
      proveReShare P vd pd lagrange pt1 pt2 = .throw) := by
  refine ⟨fun h => ?_, (reshare_run (G := G)).2⟩
  obtain ⟨lin, h1, h2, h3, h4⟩ := (reshare_run (pd := pd)).1 h
  refine ⟨lin, h1, h2, h3, fun x => ?_⟩
  unfold Spec.matVec
  constructor
  · intro hs y hy
    obtain ⟨row, hr, rfl⟩ := List.mem_map.1 hy
    obtain ⟨j, hj, rfl⟩ := List.mem_iff_getElem.1 hr
    obtain ⟨c, c1, -, -, c2⟩ := h4 j _ (List.getElem?_eq_getElem hj)
    obtain ⟨c', c3, c4⟩ := hs j hj
    rw [c1] at c3
    obtain rfl := Option.some.inj c3
    exact (c2 x).1 c4
  · intro hs j hj
    obtain ⟨c, c1, -, -, c2⟩ := h4 j _ (List.getElem?_eq_getElem hj)
    exact ⟨c, c1, (c2 x).2 (hs _ (List.mem_map.2 ⟨_, List.getElem_mem hj, rfl⟩))⟩

/-- **C43.** With the parity-check matrix of `SharingParams` (see C24): an assignment satisfies the
resharing constraints iff its new shares are a valid sharing, of the right degree, of the secret
reconstructed from its old shares. -/
theorem C43_reshare {St : Type} {P : Params q} {vd : VerifierData (ZMod q) G St}
    {pd : ProverData (ZMod q)} {lagrange pt1 pt2 : List (ZMod q)}
    (ntlKernel : List (List (ZMod q)) → List (List (ZMod q)))
    (hker : ∀ G nr nc, G.length = nr → (∀ r ∈ G, r.length = nc) →
      GeneratesLeftKernel (ntlKernel G) G nr nc)
    (pts : List Int) (t : Nat) (ht : 1 ≤ t) {sp : SharingParams (ZMod q)}
    (hsp : SharingParams.make ntlKernel pts t = .ok sp) (hH : P.H = sp.H) (hpts : pts.length = P.gk.enn)
    {vd' : VerifierData (ZMod q) G St} {pd' : ProverData (ZMod q)}
    (h : proveReShare P vd pd lagrange pt1 pt2 = .ok (vd', pd')) (x : ℕ → ZMod q) :
    (∀ j < P.H.length, ∃ c, vd'.linConstr[14 + j]? = some c ∧ LinSat c x) ↔
      ValidSharing t pts (resharing lagrange vd.ix.pt1 vd.ix.pt2 P.gk.enn x) := by
  obtain ⟨sp', e1, -, -, e2⟩ := C24_parity_check ntlKernel hker pts t ht
  rw [hsp] at e1
  obtain rfl := Res.ok.inj e1
  by_cases hc : pt1.length = P.gk.tee ∧ lagrange.length = P.gk.tee ∧ pt2.length = P.gk.enn ∧
      (∀ row ∈ P.H, row.length = 1 + P.gk.enn) ∧ 14 + P.H.length ≤ vd.linConstr.length
  · obtain ⟨lin, h1, -, -, h4⟩ := (C43_reshare_meaning (pd := pd)).1 hc
    rw [h] at h1
    obtain ⟨rfl, rfl⟩ := Prod.mk.inj (Res.ok.inj h1)
    rw [h4 x, hH, e2]
    simp [resharing, hpts]
  · rw [C43_reshare_meaning.2 hc] at h
    cases h

/-- Three parity checks, two old shares, four new ones. -/
example : ∃ r, proveReShare demoP demoV demoD [2, -1] demoPt1 demoPt2 = .ok r := by
  obtain ⟨lin, h, -⟩ := (C43_reshare_meaning (P := demoP) (vd := demoV) (pd := demoD) (lagrange := [2, -1])
    (pt1 := demoPt1) (pt2 := demoPt2)).1 (by decide +kernel)
  exact ⟨_, h⟩

/-! ### Smallness -/

/-- The largest absolute value of a coefficient is at most `B` iff all are. -/
theorem C43_lInfty (v : EVec q 2) (B : ℤ) (hB : 0 ≤ B) :
    lInftyNorm v ≤ B ↔ ∀ s ∈ coeffs v, |s.valMinAbs| ≤ B :=
  lInfty_le v B hB

/-- **C43.** What the smallness constraints say about an assignment `x`: the published masked reply `z` is
the mask in `x` plus the product of the 1300 ring elements in the first 2600 variables of `x` with the
challenge matrix, all 64 equations batched with powers of the challenge; and `z` is as small as
promised. -/
theorem C43_smallness_meaning {E : Env (ZMod q) G} (hE : LengthOk E) {P : Params q}
    {rnd : ℕ → SmallRnd q} {vd vd' : VerifierData (ZMod q) G E.St} {pd pd' : ProverData (ZMod q)}
    (S : Setup P vd pd) (h : proveSmallness E P rnd vd pd = .ok (vd', pd'))
    (ρ : ℕ → ℕ → Elt (ZMod q) 2) (ξ : Elt (ZMod q) 2) (st : E.St)
    (hC : smallChallenges E vd.mer vd'.com vd'.z = (ρ, ξ, st)) :
    (∀ x, SlotSat vd'.linConstr 12 x ↔
      batch 64 ξ (fun j => eltAt x vd.ix.y j + (∑ i ∈ Finset.range 1300, eltAt x 0 i * ρ i j) -
        vd'.z.getD j 0) = 0) ∧
    vd'.z.length = 64 ∧ lInftyNorm vd'.z ≤ P.B_smallness ∧ vd'.mer = st ∧
    OnlyChanged vd { vd' with z := vd.z } [12] [] ∧ Setup P vd' pd' := by
  obtain ⟨i, y, u, h1, h2, h3, h4, h5, h6, h7, h8, h9, h10, h11, h12⟩ := small_run hE S h
  rw [hC] at h8 h11
  dsimp only at h8
  refine ⟨fun x => h8.slotSat x, h4, h7, by rw [h11], ⟨?_, ?_, ?_, rfl, ?_, ?_⟩, ?_⟩
  · rw [h11]
  · rw [h11]
  · rw [h11]
  · intro i hi
    have := hi 12 (by simp)
    exact h9.2 i this.1 this.2
  · intro k _
    rw [h11]
  · have hw := (putAll_spec [(vd.ix.y, coeffs y)] _ S.linWitness).1
    have hl : vd'.linConstr.length = vd.linConstr.length := h9.1
    have e1 : vd'.ix = vd.ix := by rw [h11]
    have e2 : vd'.Gs = vd.Gs := by rw [h11]
    have e3 : vd'.Hs = vd.Hs := by rw [h11]
    have e4 : vd'.normConstr = vd.normConstr := by rw [h11]
    subst h12
    exact ⟨by rw [e1]; exact S.layout, by rw [e1]; exact S.small, by rw [e1, e2]; exact S.gs,
      by rw [e3]; exact S.hs, by rw [hl]; exact S.lin, by rw [e4]; exact S.normLength,
      by rw [e4]; exact S.norm, S.compressed, hw, S.quadWitness⟩

/-- **C43.** An honest smallness proof: if the vector `compressed` holds the values of the first 2600
variables, then the values in the witness satisfy the recorded constraints, the mask opens its
commitment and is one of the masks that were drawn, and the product without mask is small too. -/
theorem C43_smallness {E : Env (ZMod q) G} (hE : LengthOk E) {P : Params q}
    {rnd : ℕ → SmallRnd q} {vd vd' : VerifierData (ZMod q) G E.St} {pd pd' : ProverData (ZMod q)}
    (S : Setup P vd pd) (h : proveSmallness E P rnd vd pd = .ok (vd', pd'))
    (x : ℕ → ZMod q) (hx : Agrees pd'.linWitness x)
    (hc : ∀ i < 1300, pd.compressed[i]? = some (eltAt x 0 i)) :
    SlotSat vd'.linConstr 12 x ∧
    vd'.com.y = comG E.base vd.Gs x vd.ix.y 128 pd'.rnd.y ∧
    (∃ i, Reads x vd.ix.y (coeffs ((List.range 64).map fun j =>
      (boundedElement P.smlnsBits ((rnd i).y j) : Elt (ZMod q) 2)))) ∧
    ∀ j < 64, ∀ k : Fin 2, |(((vd'.z.getD j 0).c k - (eltAt x vd.ix.y j).c k : ZMod q)).valMinAbs| ≤
      P.B_smallness.fdiv 128 := by
  obtain ⟨i, y, u, h1, h2, h3, h4, h5, h6, h7, h8, h9, h10, h11, h12⟩ := small_run hE S h
  have hx' := hx
  rw [h12] at hx'
  have hr := agrees_reads S.linWitness (W := [(vd.ix.y, coeffs y)]) (List.pairwise_singleton _ _) hx'
    (vd.ix.y, coeffs y) (by simp)
  have hy : y.length = 64 := by rw [h1]; simp
  have hcg : ∀ i < 1300, pd.compressed.getD i 0 = eltAt x 0 i := fun i hi => by
    rw [List.getD_eq_getElem?_getD, hc i hi]; rfl
  refine ⟨(h8.slotSat x).2 (batch_zero fun j hj => ?_), h10 x hr, ⟨i, ?_⟩, ?_⟩
  · rw [h5 j hj, h3 j hj, hr.elt j (by omega),
      sum_range_congr (n := 1300) (f := fun i => pd.compressed.getD i 0 *
        (smallChallenges E vd.mer vd'.com vd'.z).1 i j)
        (g := fun i => eltAt x 0 i * (smallChallenges E vd.mer vd'.com vd'.z).1 i j)
        fun i hi => by rw [hcg i hi]]
    ring
  · rw [← h1]; exact hr
  · intro j hj k
    have e : vd'.z.getD j 0 - eltAt x vd.ix.y j = u.getD j 0 := by
      rw [h5 j hj, hr.elt j (by omega)]; ring
    have e' : (vd'.z.getD j 0).c k - (eltAt x vd.ix.y j).c k = (u.getD j 0).c k := by
      rw [← e]; rfl
    rw [e']
    have h0 : 0 ≤ P.B_smallness.fdiv (LINYDIM : ℤ) := by
      refine le_trans ?_ h6
      have : ∀ (l : List (ZMod q)) (r : ℤ), 0 ≤ r →
          0 ≤ l.foldl (fun ret s => if ret < |balanced s| then |balanced s| else ret) r := by
        intro l
        induction l with
        | nil => intro r h; exact h
        | cons a l ih =>
          intro r h
          rw [List.foldl_cons]
          apply ih
          by_cases hh : r < |balanced a|
          · rw [if_pos hh]; exact abs_nonneg _
          · rw [if_neg hh]; exact h
      exact this _ 0 le_rfl
    have hu := (C43_lInfty u _ h0).1 h6
    have hlt : j < u.length := by omega
    have hm := coeffs_get u j k _ (List.getElem?_eq_getElem hlt)
    have := hu _ (List.mem_iff_getElem?.2 ⟨_, hm⟩)
    rw [getD_of_lt u hlt]
    exact this

/-- **C43.** When a smallness proof can be made: exactly if one of 100 trials is accepted; otherwise an
exception is thrown, and nothing is undefined. -/
theorem C43_smallness_defined {E : Env (ZMod q) G} (hE : LengthOk E) {P : Params q} {rnd : ℕ → SmallRnd q}
    {vd : VerifierData (ZMod q) G E.St} {pd : ProverData (ZMod q)} (S : Setup P vd pd)
    (hB : 0 ≤ P.B_smallness) :
    ((∃ i < 100, SmallAccepted E P vd.mer vd.ix vd.Gs pd.compressed rnd i) →
      ∃ r, proveSmallness E P rnd vd pd = .ok r) ∧
    ((¬ ∃ i < 100, SmallAccepted E P vd.mer vd.ix vd.Gs pd.compressed rnd i) →
      proveSmallness E P rnd vd pd = .throw) :=
  small_total hE S hB

/-- **C43.** The first trial succeeds whatever its mask and challenge are, if the vector is small and so are
all masks. -/
theorem C43_smallness_small {E : Env (ZMod q) G} (hE : LengthOk E) {P : Params q} {rnd : ℕ → SmallRnd q}
    {vd : VerifierData (ZMod q) G E.St} {pd : ProverData (ZMod q)} (S : Setup P vd pd)
    (hB : 0 ≤ P.B_smallness) (hc : l1 pd.compressed ≤ P.B_smallness.fdiv 128)
    (hy : 2 ^ P.smlnsBits - 1 ≤ P.B_smallness - l1 pd.compressed) :
    ∃ r, proveSmallness E P rnd vd pd = .ok r := by
  refine (small_total hE S hB).1 ⟨0, by norm_num, ?_⟩
  unfold SmallAccepted
  simp only
  generalize hu : compressLeft 1300 64 pd.compressed _ = u
  have hb : Below u (l1 pd.compressed) := by
    rw [← hu]; exact below_left S.compressed (isTernary_ternaryOf _ _ _) 64
  constructor
  · intro s hs
    obtain ⟨e, he, hs⟩ := List.mem_flatMap.1 hs
    obtain ⟨j, rfl⟩ := (List.mem_ofFn' _ _).1 hs
    exact (hb e he j).trans hc
  · intro s hs
    obtain ⟨e, he, hs⟩ := List.mem_flatMap.1 hs
    obtain ⟨j, rfl⟩ := (List.mem_ofFn' _ _).1 hs
    obtain ⟨k, hk, rfl⟩ := List.mem_iff_getElem.1 he
    rw [List.getElem_zipWith, Elt.add_c]
    rw [List.length_zipWith] at hk
    have h1 := hb u[k] (List.getElem_mem _) j
    have h2 := mask_abs P rnd 0 (((smallMask P rnd 0)[k]'(by omega)).c j)
      (List.mem_flatMap.2 ⟨_, List.getElem_mem _, (List.mem_ofFn' _ _).2 ⟨j, rfl⟩⟩)
    exact (abs_add_le' _ _).trans (by linarith)

/-- A nonzero vector and nonzero masks. -/
example : ∃ r, proveSmallness demoE demoP demoSmall demoV demoD = .ok r :=
  C43_smallness_small demoE_length demo_setup (by decide +kernel) (by decide +kernel) (by decide +kernel)

end
end Verif.Props
