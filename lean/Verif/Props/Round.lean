/-
C64, C65: complete rounds of proofs.  An honest party that runs the five proof functions one after the
other ends up with data from which the two final proofs are made and accepted (C64), and so it does in
every later round, after any number of rounds on the same data (C65).
-/
import Verif.Lemmas.NextRound
import Verif.Props.RegevProofs
import Verif.Props.Aggregate
import Mathlib.Algebra.Polynomial.Roots
import Mathlib.Data.Set.Card.Arithmetic

namespace Verif.Props
open Spec Regev
open scoped BigOperators

section
variable {q : ℕ} [Fact q.Prime] {G : Type} [AddCommGroup G] [Module (ZMod q) G]

/-- **C64.** The constructors and the commitment to the key succeed whenever the number of variables fits
an `int`, and leave the state in which a round starts. -/
theorem C64_start (E : Env (ZMod q) G) (P : Params q) (getG getH : ℕ → G) (mer : E.St) (rnd : Blocks (ZMod q))
    (sk : EVec q 2) (r : ZMod q) (hsk : sk.length = P.gk.kay) (ht : P.gk.tee ≤ P.gk.enn + 1)
    (hw : (setIndexesNat P.gk.kay 2 P.gk.enn P.gk.tee).w < 2 ^ 31) :
    ∃ vd vd' pd', newVerifierData getG getH P mer = .ok vd ∧
      commitKey E sk r vd (newProverData rnd) = .ok (vd', pd') ∧ Start E P sk vd' pd' ∧
      vd'.linConstr.length = 15 + P.gk.enn - P.gk.tee := by
  obtain ⟨vd, h1⟩ : ∃ vd, newVerifierData getG getH P mer = .ok vd := by
    unfold newVerifierData setIndexes
    rw [if_pos hw, Res.ok_bind, if_neg (by omega)]
    exact ⟨_, rfl⟩
  have h1' := h1
  unfold newVerifierData setIndexes at h1'
  rw [if_pos hw, Res.ok_bind, if_neg (by omega)] at h1'
  have e := Res.ok.inj h1'
  have hlen : vd.ix.sk1 + sk.length * 2 ≤ vd.Gs.length := by
    rw [← e]
    simp only [computeGenerators, List.length_map, List.length_range, hsk, setIndexesNat]
    omega
  obtain ⟨vd', pd', h2, h3⟩ : ∃ vd' pd', commitKey E sk r vd (newProverData rnd) = .ok (vd', pd') ∧
      vd'.linConstr = vd.linConstr := by
    unfold commitKey
    rw [commitE_total hlen, Res.ok_bind]
    exact ⟨_, _, rfl, rfl⟩
  refine ⟨vd, vd', pd', h1, h2, init_start getG getH mer rnd sk r hsk h1 h2 ht, ?_⟩
  rw [h3, ← e]
  simp only [List.length_replicate]
  omega

/-- **C64.** What an honest round leaves behind, for every outcome of the coins and tests: the values in the
witness contain the two keys, the encryption randomness and the plaintexts; and unless the four-square
search failed for one of the ten vectors, they satisfy all the constraints that have been recorded and open
all the commitments that have been published. -/
theorem C64_prepared {E : Env (ZMod q) G} (hE : LengthOk E) {P : Params q} (hP : ParamsOk P)
    {tests : ℕ → Tests} (hT : ∀ k, NoFalsePrimes (tests k).probPrime) {fresh : Blocks (ZMod q)}
    {small : ℕ → SmallRnd q} {inp : RoundInput q} (hI : Honest P inp)
    {vd vd' : VerifierData (ZMod q) G E.St} {pd pd' : ProverData (ZMod q)} (S : Start E P inp.sk1 vd pd)
    (h : proveRound E P fresh tests small inp vd pd = .ok (vd', pd')) (x : ℕ → ZMod q)
    (hx : x = coef pd'.linWitness) :
    (Prepared E.base P.gk.kay P.gk.enn P.gk.tee vd' pd' x ∨ ∃ k < 10, PadFailed P tests x k) ∧
    Reads x vd.ix.sk1 (coeffs inp.sk1) ∧ Reads x vd.ix.pt1 inp.pt1 ∧ Reads x vd.ix.r (coeffs inp.encRnd) ∧
    Reads x vd.ix.pt2 inp.pt2 ∧ Reads x vd.ix.sk2 (coeffs inp.sk2) ∧
    (∀ k < 10, NormRecorded P vd'.normConstr k) := by
  obtain ⟨h1, ⟨h2, h3, h4, h5, h6⟩, h7, -⟩ := round_core hE hP hT hI S h x hx
  exact ⟨h1, h2, h3, h4, h5, h6, h7⟩

/-- **C64.** Completeness of a whole round: an honest party whose four-square searches succeeded, and which
gets good aggregation challenges, can aggregate; and whatever coins it then uses, both final proofs are
accepted (or the code throws, because the last challenge of the linear proof was zero). -/
theorem C64_complete [DecidableEq G] {E : Env (ZMod q) G} (hE : LengthOk E) {P : Params q} (hP : ParamsOk P)
    {tests : ℕ → Tests} (hT : ∀ k, NoFalsePrimes (tests k).probPrime) {fresh : Blocks (ZMod q)}
    {small : ℕ → SmallRnd q} {inp : RoundInput q} (hI : Honest P inp)
    {vd vd' : VerifierData (ZMod q) G E.St} {pd pd' : ProverData (ZMod q)} (S : Start E P inp.sk1 vd pd)
    (h : proveRound E P fresh tests small inp vd pd = .ok (vd', pd'))
    (hpad : ∀ k < 10, ¬ PadFailed P tests (coef pd'.linWitness) k)
    (tie : List (CompIter (ZMod q)) → ℕ) (coinsL coinsQ : ℕ → ZMod q × ZMod q) (wRnd : ZMod q)
    (v : ReadyToProve (ZMod q) G) (r1 r2 : ZMod q) (st1 st2 : E.St)
    (h1 : E.newChallenge vd'.mer (str "aggregateLinear") = (r1, st1))
    (h2 : E.newChallenge st1 (str "aggregateNorms") = (r2, st2))
    (hC : GoodChallenges vd' (coef pd'.linWitness) r1 r2) :
    ∃ v' vd'' pd'', aggregateProver E tie wRnd v vd' pd' = .ok (v', vd'', pd'') ∧
      (∀ rtv merL merQ pfL pfQ,
        finalProve E coinsL coinsQ v' vd'' pd'' = .ok (rtv, merL, merQ, pfL, pfQ) →
        (finalVerifyLin E rtv merL pfL = .ok true ∨
          (finalVerifyLin E rtv merL pfL = .throw ∧ (deriveLin E pfL rtv.linGs.length merL).x = 0)) ∧
        finalVerifyQuad E rtv merQ pfQ = .ok true) ∧
      ((0 ∈ finalChallenges E coinsL coinsQ v' vd'' pd'' ∧
        finalProve E coinsL coinsQ v' vd'' pd'' = .throw) ∨
       (0 ∉ finalChallenges E coinsL coinsQ v' vd'' pd'' ∧
        ∃ out, finalProve E coinsL coinsQ v' vd'' pd'' = .ok out)) := by
  rcases (round_core hE hP hT hI S h _ rfl).1 with hp | ⟨k, hk, hf⟩
  · obtain ⟨v', vd'', pd'', a, b, c⟩ := C42_final_proofs E tie coinsL coinsQ wRnd v vd' pd' _ _ _ _ hp r1 r2
      st1 st2 h1 h2 hC
    exact ⟨v', vd'', pd'', a, fun rtv merL merQ pfL pfQ hf => (b rtv merL merQ pfL pfQ hf).2.2.2.2, c⟩
  · exact absurd hf (hpad k hk)

/-- The mask and the compressed vector are always accepted if the bound is larger than the field. -/
theorem small_accepted {E : Env (ZMod q) G} {P : Params q} (hB : 128 * (q : ℤ) ≤ P.B_smallness) (st : E.St)
    (ix : Indexes) (Gs : List G) (compressed : EVec q 2) (rnd : ℕ → SmallRnd q) (i : ℕ) :
    SmallAccepted E P st ix Gs compressed rnd i := by
  have : NeZero q := ⟨(Fact.out : q.Prime).ne_zero⟩
  have hs : ∀ s : ZMod q, |s.valMinAbs| ≤ q := by
    intro s
    have := s.natAbs_valMinAbs_le
    have e : |s.valMinAbs| = (s.valMinAbs.natAbs : ℤ) := Int.abs_eq_natAbs _
    omega
  constructor
  · intro s _
    refine (hs s).trans ?_
    rw [Int.fdiv_eq_ediv_of_nonneg _ (by norm_num)]
    omega
  · intro s _
    refine (hs s).trans ?_
    omega

/-- **C64.** The proofs of a round can be made: if the dimensions are multiples of four, the noises, the key
and the randomness are small, and the new public key exists, then the five functions succeed or the last
one throws because all of its 100 trials were rejected (never undefined behaviour); they succeed if, whatever
comes before it, one of the trials is accepted. -/
theorem C64_live {E : Env (ZMod q) G} (hE : LengthOk E) {P : Params q} (hP : ParamsOk P)
    {tests : ℕ → Tests} (hT : ∀ k, NoFalsePrimes (tests k).probPrime) (fresh : Blocks (ZMod q))
    (small : ℕ → SmallRnd q) {inp : RoundInput q} (hI : Honest P inp)
    {vd : VerifierData (ZMod q) G E.St} {pd : ProverData (ZMod q)} (S : Start E P inp.sk1 vd pd)
    (h4 : 4 ∣ P.gk.kay ∧ 4 ∣ P.gk.enn) (hpk : inp.pkNum < P.gk.enn)
    (hla : inp.lagrange.length = P.gk.tee) (hH : ∀ row ∈ P.H, row.length = 1 + P.gk.enn)
    (hl : 14 + P.H.length ≤ vd.linConstr.length) (hB : 0 ≤ P.B_smallness)
    (b0 : 8 * (2 * l1 inp.decNoise + P.radix) ≤ P.radix * normBound P 0)
    (b2 : 16 * l1 inp.encRnd ≤ normBound P 2)
    (b3 : 8 * (2 * l1 inp.encNoise1 + P.radix) ≤ P.radix * normBound P 3)
    (b5 : 8 * (2 * l1 inp.encNoise2 + P.radix) ≤ P.radix * normBound P 5)
    (b7 : 16 * l1 inp.sk2 ≤ normBound P 7)
    (b8 : 8 * (2 * l1 inp.keyNoise + P.radix) ≤ P.radix * normBound P 8) :
    ((∃ r, proveRound E P fresh tests small inp vd pd = .ok r) ∨
      proveRound E P fresh tests small inp vd pd = .throw) ∧
    ((∀ st ix Gs v, v.length = 1300 → ∃ i < 100, SmallAccepted E P st ix Gs v small i) →
      ∃ r, proveRound E P fresh tests small inp vd pd = .ok r) := by
  unfold proveRound
  have S0 := S.setup
  obtain ⟨⟨vd1, pd1⟩, h1⟩ := C43_decryption_small hE hP hT (fresh := fresh) S0 hI.ctMat hI.ctVec hI.pt1
    hI.decNoise (skey := inp.sk1) b0
  obtain ⟨L1, W1, s1, -⟩ :=
    dec_core hE hP hT S0 hI.ctMat hI.ctVec hI.pt1 hI.sk1 hI.decNoise hI.decrypts h1
  have S1 := s1.setup S0
  have e6 : vd1.linConstr[6]? = vd.linConstr[6]? := s1.linRest 6 (by simp)
  have e7 : vd1.linConstr[7]? = vd.linConstr[7]? := s1.linRest 7 (by simp)
  have h6 : ∀ j : Fin 2, vd1.linConstr.getD (6 + j.val) ⟨[], 0⟩ = ⟨[], 0⟩ := by
    intro j
    have e : vd1.linConstr.getD (6 + j.val) ⟨[], 0⟩ = vd.linConstr.getD (6 + j.val) ⟨[], 0⟩ := by
      rw [List.getD_eq_getElem?_getD, List.getD_eq_getElem?_getD]
      have : j.val = 0 ∨ j.val = 1 := by omega
      rcases this with e | e <;> rw [e]
      · rw [Nat.add_zero, e6]
      · rw [e7]
    rw [e, slot_empty S.linEmpty]
  have h6a : SlotOk vd1.linConstr 6 vd1.ix.w := by
    intro i
    rw [h6]
    exact ⟨List.Pairwise.nil, fun j hj => absurd hj List.not_mem_nil⟩
  have h6b : ∀ x, slotLhs vd1.linConstr 6 x = 0 := by
    intro x
    unfold slotLhs
    apply Elt.ext
    funext i
    simp only [h6]
    simp [linLhs]
  obtain ⟨⟨vd2, pd2⟩, h2⟩ := C43_encryption_small hE hP hT (fresh := fresh) S1 h6a hI.ct1 hI.ct2 hI.pt2
    hI.encRnd hI.encNoise1 hI.encNoise2 h4 b2 b3 b5
  obtain ⟨L2, W2, s2, -⟩ := enc_core hE hP hT S1 h6a h6b hI.ct1 hI.ct2 hI.pt2 hI.encRnd hI.encNoise1
    hI.encNoise2 hI.encrypts1 hI.encrypts2 h2
  have S2 := s2.setup S1
  obtain ⟨⟨vd3, pd3⟩, h3⟩ := C43_keygen_small hE hP hT (fresh := fresh) S2 hI.sk2 hI.keyNoise hpk b7 b8
  obtain ⟨L3, W3, s3, -⟩ := key_core hE hP hT S2 hI.sk2 hI.keyNoise hI.keyFor h3
  have S3 := s3.setup S2
  obtain ⟨lin, h5, l5, -, -⟩ := (C43_reshare_meaning (P := P) (vd := vd3) (pd := pd3) (lagrange := inp.lagrange)
    (pt1 := inp.pt1) (pt2 := inp.pt2)).1 ⟨hI.pt1, hla, hI.pt2, hH, by
      rw [s3.linLength, s2.linLength, s1.linLength]; exact hl⟩
  have S4 : Setup P { vd3 with linConstr := lin } pd3 :=
    ⟨S3.layout, S3.small, S3.gs, S3.hs, by rw [l5]; exact S3.lin, S3.normLength, S3.norm, S3.compressed,
      S3.linWitness, S3.quadWitness⟩
  rw [h1, Res.ok_bind]
  simp only
  rw [h2, Res.ok_bind]
  simp only
  rw [h3, Res.ok_bind]
  simp only
  rw [h5, Res.ok_bind]
  simp only
  have hd := C43_smallness_defined hE (rnd := small) S4 hB
  constructor
  · by_cases hc : ∃ i < 100, SmallAccepted E P vd3.mer vd3.ix vd3.Gs pd3.compressed small i
    · exact Or.inl (hd.1 hc)
    · exact Or.inr (hd.2 hc)
  · intro hb
    exact hd.1 (hb _ _ _ _ S4.compressed)

/-- **C64.** The proofs of a round can be made: if the dimensions are multiples of four, the noises, the key
and the randomness are small, and the new public key exists, then the five functions succeed or the last
one throws because all of its 100 trials were rejected (never undefined behaviour); they succeed if the
smallness bound is so large that nothing is rejected. -/
theorem C64_defined {E : Env (ZMod q) G} (hE : LengthOk E) {P : Params q} (hP : ParamsOk P)
    {tests : ℕ → Tests} (hT : ∀ k, NoFalsePrimes (tests k).probPrime) (fresh : Blocks (ZMod q))
    (small : ℕ → SmallRnd q) {inp : RoundInput q} (hI : Honest P inp)
    {vd : VerifierData (ZMod q) G E.St} {pd : ProverData (ZMod q)} (S : Start E P inp.sk1 vd pd)
    (h4 : 4 ∣ P.gk.kay ∧ 4 ∣ P.gk.enn) (hpk : inp.pkNum < P.gk.enn)
    (hla : inp.lagrange.length = P.gk.tee) (hH : ∀ row ∈ P.H, row.length = 1 + P.gk.enn)
    (hl : 14 + P.H.length ≤ vd.linConstr.length) (hB : 0 ≤ P.B_smallness)
    (b0 : 8 * (2 * l1 inp.decNoise + P.radix) ≤ P.radix * normBound P 0)
    (b2 : 16 * l1 inp.encRnd ≤ normBound P 2)
    (b3 : 8 * (2 * l1 inp.encNoise1 + P.radix) ≤ P.radix * normBound P 3)
    (b5 : 8 * (2 * l1 inp.encNoise2 + P.radix) ≤ P.radix * normBound P 5)
    (b7 : 16 * l1 inp.sk2 ≤ normBound P 7)
    (b8 : 8 * (2 * l1 inp.keyNoise + P.radix) ≤ P.radix * normBound P 8) :
    ((∃ r, proveRound E P fresh tests small inp vd pd = .ok r) ∨
      proveRound E P fresh tests small inp vd pd = .throw) ∧
    (128 * (q : ℤ) ≤ P.B_smallness → ∃ r, proveRound E P fresh tests small inp vd pd = .ok r) := by
  obtain ⟨h1, h2⟩ := C64_live hE hP hT fresh small hI S h4 hpk hla hH hl hB b0 b2 b3 b5 b7 b8
  exact ⟨h1, fun hb => h2 fun _ _ _ _ _ => ⟨0, by norm_num, small_accepted hb _ _ _ _ _ _⟩⟩

/-- **C64.** The outcomes of a round, whatever the sizes of the noises: if both dimensions are multiples of four
the five functions succeed or throw, and nothing is undefined; otherwise they do not succeed: either an
exception is thrown before the challenge matrices of the encryption proof are made, or these are read
past the end of their buffer. -/
theorem C64_outcomes {E : Env (ZMod q) G} (hE : LengthOk E) {P : Params q} (hP : ParamsOk P)
    {tests : ℕ → Tests} (hT : ∀ k, NoFalsePrimes (tests k).probPrime) (fresh : Blocks (ZMod q))
    (small : ℕ → SmallRnd q) {inp : RoundInput q} (hI : Honest P inp)
    {vd : VerifierData (ZMod q) G E.St} {pd : ProverData (ZMod q)} (S : Start E P inp.sk1 vd pd)
    (hpk : inp.pkNum < P.gk.enn) (hB : 0 ≤ P.B_smallness) :
    (4 ∣ P.gk.kay ∧ 4 ∣ P.gk.enn → (∃ r, proveRound E P fresh tests small inp vd pd = .ok r) ∨
      proveRound E P fresh tests small inp vd pd = .throw) ∧
    (¬ (4 ∣ P.gk.kay ∧ 4 ∣ P.gk.enn) → proveRound E P fresh tests small inp vd pd = .throw ∨
      proveRound E P fresh tests small inp vd pd = .ub) := by
  unfold proveRound
  have S0 := S.setup
  obtain ⟨hi, lo, -, hd1, hd2⟩ := C43_decryption_defined hE hP hT (fresh := fresh) S0 hI.ctMat hI.ctVec hI.pt1
    hI.decNoise _ rfl (skey := inp.sk1)
  by_cases hf : Fits P 0 hi
  swap
  · rw [hd2 hf]
    exact ⟨fun _ => Or.inr rfl, fun _ => Or.inl rfl⟩
  obtain ⟨⟨vd1, pd1⟩, h1⟩ := hd1 hf
  obtain ⟨L1, W1, s1, -⟩ :=
    dec_core hE hP hT S0 hI.ctMat hI.ctVec hI.pt1 hI.sk1 hI.decNoise hI.decrypts h1
  have S1 := s1.setup S0
  have e6 : vd1.linConstr[6]? = vd.linConstr[6]? := s1.linRest 6 (by simp)
  have e7 : vd1.linConstr[7]? = vd.linConstr[7]? := s1.linRest 7 (by simp)
  have h6 : ∀ j : Fin 2, vd1.linConstr.getD (6 + j.val) ⟨[], 0⟩ = ⟨[], 0⟩ := by
    intro j
    have e : vd1.linConstr.getD (6 + j.val) ⟨[], 0⟩ = vd.linConstr.getD (6 + j.val) ⟨[], 0⟩ := by
      rw [List.getD_eq_getElem?_getD, List.getD_eq_getElem?_getD]
      have : j.val = 0 ∨ j.val = 1 := by omega
      rcases this with e | e <;> rw [e]
      · rw [Nat.add_zero, e6]
      · rw [e7]
    rw [e, slot_empty S.linEmpty]
  have h6a : SlotOk vd1.linConstr 6 vd1.ix.w := by
    intro i
    rw [h6]
    exact ⟨List.Pairwise.nil, fun j hj => absurd hj List.not_mem_nil⟩
  have h6b : ∀ x, slotLhs vd1.linConstr 6 x = 0 := by
    intro x
    unfold slotLhs
    apply Elt.ext
    funext i
    simp only [h6]
    simp [linLhs]
  rw [h1, Res.ok_bind]
  simp only
  obtain ⟨hub, hen⟩ := C43_encryption_defined hE hP hT (fresh := fresh) S1 h6a hI.ct1 hI.ct2 hI.pt2
    hI.encRnd hI.encNoise1 hI.encNoise2 _ _ rfl rfl _ rfl
  by_cases h4 : 4 ∣ P.gk.kay ∧ 4 ∣ P.gk.enn
  swap
  · rw [hub h4]
    exact ⟨fun h => absurd h h4, fun _ => Or.inr rfl⟩
  refine ⟨fun _ => ?_, fun h => absurd h4 h⟩
  obtain ⟨hi1, lo1, hi2, lo2, -, -, he1, he2⟩ := hen h4
  by_cases hf2 : Fits P 2 (compressRight 128 P.gk.kay (encChallenges E vd1.mer P.gk.kay P.gk.enn
      { vd1.com with pt2 := fresh.pt2 • E.base + mexp inp.pt2 (vd1.Gs.drop vd1.ix.pt2),
                     r := fresh.r • E.base + mexp (coeffs inp.encRnd) (vd1.Gs.drop vd1.ix.r) }).R3 inp.encRnd) ∧
      Fits P 3 hi1 ∧ Fits P 5 hi2
  swap
  · rw [he2 hf2]
    exact Or.inr rfl
  obtain ⟨⟨vd2, pd2⟩, h2⟩ := he1 hf2
  obtain ⟨L2, W2, s2, -⟩ := enc_core hE hP hT S1 h6a h6b hI.ct1 hI.ct2 hI.pt2 hI.encRnd hI.encNoise1
    hI.encNoise2 hI.encrypts1 hI.encrypts2 h2
  have S2 := s2.setup S1
  rw [h2, Res.ok_bind]
  simp only
  obtain ⟨hi3, lo3, -, hk1, hk2⟩ := C43_keygen_defined hE hP hT (fresh := fresh) S2 hI.sk2 hI.keyNoise
    (pkNum := inp.pkNum) _ rfl _ rfl
  by_cases hf3 : Fits P 7 (compressLeft P.gk.kay 128 inp.sk2 (keyChallenges E vd2.mer P.gk.kay
      { vd2.com with sk2 := fresh.sk2 • E.base + mexp (coeffs inp.sk2) (vd2.Gs.drop vd2.ix.sk2) }).R2) ∧ Fits P 8 hi3
  swap
  · rw [hk1 hf3]
    exact Or.inr rfl
  obtain ⟨⟨vd3, pd3⟩, h3⟩ := (hk2 hf3).1 hpk
  obtain ⟨L3, W3, s3, -⟩ := key_core hE hP hT S2 hI.sk2 hI.keyNoise hI.keyFor h3
  have S3 := s3.setup S2
  rw [h3, Res.ok_bind]
  simp only
  obtain ⟨hr1, hr2⟩ := C43_reshare_meaning (P := P) (vd := vd3) (pd := pd3) (lagrange := inp.lagrange)
    (pt1 := inp.pt1) (pt2 := inp.pt2)
  by_cases hc : inp.pt1.length = P.gk.tee ∧ inp.lagrange.length = P.gk.tee ∧ inp.pt2.length = P.gk.enn ∧
      (∀ row ∈ P.H, row.length = 1 + P.gk.enn) ∧ 14 + P.H.length ≤ vd3.linConstr.length
  swap
  · rw [hr2 hc]
    exact Or.inr rfl
  obtain ⟨lin, h5, l5, -, -⟩ := hr1 hc
  rw [h5, Res.ok_bind]
  simp only
  have S4 : Setup P { vd3 with linConstr := lin } pd3 :=
    ⟨S3.layout, S3.small, S3.gs, S3.hs, by rw [l5]; exact S3.lin, S3.normLength, S3.norm, S3.compressed,
      S3.linWitness, S3.quadWitness⟩
  have hd := C43_smallness_defined hE (rnd := small) S4 hB
  by_cases hs : ∃ i < 100, SmallAccepted E P vd3.mer vd3.ix vd3.Gs pd3.compressed small i
  · exact Or.inl (hd.1 hs)
  · exact Or.inr (hd.2 hs)

/-- **C65.** Any number of rounds: in every state that can be reached by any number of honest rounds, whatever
the parameters (of the same dimensions), keys, coins and test outcomes in them were, the commitment to
the current key is a commitment to that key, the constraints are empty and the witnesses contain nothing
of the earlier rounds outside the variables. -/
theorem C65_start {E : Env (ZMod q) G} (hE : LengthOk E) {P : Params q} (ht : P.gk.tee ≤ P.gk.enn + 1)
    {sk : EVec q 2} {vd : VerifierData (ZMod q) G E.St} {pd : ProverData (ZMod q)}
    (h : Reachable E P sk vd pd) : Start E P sk vd pd :=
  reachable_start hE ht h

/-- **C65.** Hence a round after any history is like the first: with good challenges, and if the four-square
searches succeed, both final proofs are accepted. -/
theorem C65_complete [DecidableEq G] {E : Env (ZMod q) G} (hE : LengthOk E) {P : Params q} (hP : ParamsOk P)
    (ht : P.gk.tee ≤ P.gk.enn + 1)
    {tests : ℕ → Tests} (hT : ∀ k, NoFalsePrimes (tests k).probPrime) {fresh : Blocks (ZMod q)}
    {small : ℕ → SmallRnd q} {inp : RoundInput q} (hI : Honest P inp)
    {vd vd' : VerifierData (ZMod q) G E.St} {pd pd' : ProverData (ZMod q)}
    (hR : Reachable E P inp.sk1 vd pd)
    (h : proveRound E P fresh tests small inp vd pd = .ok (vd', pd'))
    (hpad : ∀ k < 10, ¬ PadFailed P tests (coef pd'.linWitness) k)
    (tie : List (CompIter (ZMod q)) → ℕ) (coinsL coinsQ : ℕ → ZMod q × ZMod q) (wRnd : ZMod q)
    (v : ReadyToProve (ZMod q) G) (r1 r2 : ZMod q) (st1 st2 : E.St)
    (h1 : E.newChallenge vd'.mer (str "aggregateLinear") = (r1, st1))
    (h2 : E.newChallenge st1 (str "aggregateNorms") = (r2, st2))
    (hC : GoodChallenges vd' (coef pd'.linWitness) r1 r2) :
    ∃ v' vd'' pd'', aggregateProver E tie wRnd v vd' pd' = .ok (v', vd'', pd'') ∧
      (∀ rtv merL merQ pfL pfQ,
        finalProve E coinsL coinsQ v' vd'' pd'' = .ok (rtv, merL, merQ, pfL, pfQ) →
        (finalVerifyLin E rtv merL pfL = .ok true ∨
          (finalVerifyLin E rtv merL pfL = .throw ∧ (deriveLin E pfL rtv.linGs.length merL).x = 0)) ∧
        finalVerifyQuad E rtv merQ pfQ = .ok true) ∧
      ((0 ∈ finalChallenges E coinsL coinsQ v' vd'' pd'' ∧
        finalProve E coinsL coinsQ v' vd'' pd'' = .throw) ∨
       (0 ∉ finalChallenges E coinsL coinsQ v' vd'' pd'' ∧
        ∃ out, finalProve E coinsL coinsQ v' vd'' pd'' = .ok out)) :=
  C64_complete hE hP hT hI (reachable_start hE ht hR) h hpad tie coinsL coinsQ wRnd v r1 r2 st1 st2 h1 h2 hC

end

section
variable {F G : Type} [Field F] [AddCommGroup G] [Module F G]

/-- The aggregated coefficient of a variable that some constraint mentions is zero for fewer challenges
than there are constraints. -/
theorem aggCoef_roots (cs : List (LinConstraint F)) (i : ℕ) (h : ∃ c ∈ cs, coef c.terms i ≠ 0) :
    {r : F | aggCoef cs r i = 0}.Finite ∧ {r : F | aggCoef cs r i = 0}.ncard ≤ cs.length - 1 := by
  classical
  obtain ⟨P, hP⟩ : ∃ P : Polynomial F, P = ∑ j ∈ Finset.range cs.length,
    Polynomial.C ((cs[j]?.map fun c => coef c.terms i).getD 0) * Polynomial.X ^ j := ⟨_, rfl⟩
  have hcoeff : ∀ j (hj : j < cs.length), P.coeff j = coef cs[j].terms i := by
    intro j hj
    rw [hP, Polynomial.finset_sum_coeff, Finset.sum_eq_single j]
    · simp [hj]
    · intro k _ hk; rw [Polynomial.coeff_C_mul_X_pow, if_neg (Ne.symm hk)]
    · intro h; simp at h; omega
  have hP0 : P ≠ 0 := by
    obtain ⟨c, hc, hcx⟩ := h
    obtain ⟨j, hj, rfl⟩ := List.getElem_of_mem hc
    intro h
    apply hcx
    rw [← hcoeff j hj, h, Polynomial.coeff_zero]
  have hpos : 0 < cs.length := by
    obtain ⟨c, hc, -⟩ := h
    exact List.length_pos_of_mem hc
  have hdeg : P.natDegree ≤ cs.length - 1 := by
    rw [hP]
    apply Polynomial.natDegree_sum_le_of_forall_le
    intro j hj
    have := Finset.mem_range.1 hj
    exact le_trans (Polynomial.natDegree_C_mul_X_pow_le _ _) (by omega)
  have heval : ∀ r : F, P.eval r = aggCoef cs r i := by
    intro r
    rw [hP, Polynomial.eval_finset_sum]
    have hz : (cs.zip (pows r cs.length)).map (fun p => p.2 * coef p.1.terms i)
        = (List.range cs.length).map fun j => ((cs[j]?.map fun c => coef c.terms i).getD 0) * r ^ j := by
      unfold pows
      apply List.ext_getElem
      · simp
      · intro j h1 h2
        have hj : j < cs.length := by simpa using h2
        simp [hj, mul_comm]
    unfold aggCoef
    rw [hz, ← List.sum_toFinset]
    · simp [List.toFinset_range]
    · exact List.nodup_range
  have hsub : {r : F | aggCoef cs r i = 0} ⊆ (P.roots.toFinset : Set F) := by
    intro r hr
    simp only [Finset.mem_coe, Multiset.mem_toFinset, Polynomial.mem_roots hP0, Polynomial.IsRoot.def]
    rw [heval]
    exact hr
  refine ⟨(Finset.finite_toSet _).subset hsub, ?_⟩
  refine le_trans (Set.ncard_le_ncard hsub (Finset.finite_toSet _)) ?_
  rw [Set.ncard_coe_finset]
  exact le_trans (Multiset.toFinset_card_le _) (le_trans (Polynomial.card_roots' P) hdeg)

/-- **C64.** Almost all challenges are good: if every linear-only variable with a nonzero value, and the last
variable, occur in some constraint, then for each nonzero `r2` at most `(w-2600)·(k-1)` of the challenges
`r1` are not good, where `k` is the number of linear constraints. -/
theorem C64_challenges {St : Type} (vd : VerifierData F G St) (x : ℕ → F) (r2 : F) (h2 : r2 ≠ 0)
    (hw : 260 * 10 < vd.ix.w)
    (hlast : ∃ c ∈ vd.linConstr, coef c.terms (vd.ix.w - 1) ≠ 0)
    (hv : ∀ i, 260 * 10 ≤ i → i < vd.ix.w → x i ≠ 0 → ∃ c ∈ vd.linConstr, coef c.terms i ≠ 0) :
    {r1 : F | ¬ GoodChallenges vd x r1 r2}.Finite ∧
    {r1 : F | ¬ GoodChallenges vd x r1 r2}.ncard ≤ (vd.ix.w - 260 * 10) * (vd.linConstr.length - 1) := by
  classical
  obtain ⟨N, hN⟩ : ∃ N, N = 260 * 10 := ⟨_, rfl⟩
  obtain ⟨S, hS⟩ : ∃ S : Finset ℕ, S = (Finset.Ico N vd.ix.w).filter
    fun i => ∃ c ∈ vd.linConstr, coef c.terms i ≠ 0 := ⟨_, rfl⟩
  have hfin : ∀ i ∈ S, {r : F | aggCoef vd.linConstr r i = 0}.Finite ∧
      {r : F | aggCoef vd.linConstr r i = 0}.ncard ≤ vd.linConstr.length - 1 := by
    intro i hi
    rw [hS, Finset.mem_filter] at hi
    exact aggCoef_roots _ i hi.2
  have hsub : {r1 : F | ¬ GoodChallenges vd x r1 r2} ⊆ ⋃ i ∈ S, {r : F | aggCoef vd.linConstr r i = 0} := by
    intro r hr
    by_contra hc
    apply hr
    simp only [Set.mem_iUnion, Set.mem_setOf_eq, exists_prop, not_exists, not_and] at hc
    refine ⟨h2, ?_, ?_⟩
    · apply hc
      rw [hS, Finset.mem_filter, Finset.mem_Ico]
      exact ⟨⟨by omega, by omega⟩, hlast⟩
    · intro i hi hi2
      by_cases hx : x i = 0
      · exact Or.inl hx
      · right
        apply hc
        rw [hS, Finset.mem_filter, Finset.mem_Ico]
        exact ⟨⟨by omega, hi2⟩, hv i hi hi2 hx⟩
  have hF : (⋃ i ∈ S, {r : F | aggCoef vd.linConstr r i = 0}).Finite :=
    Set.Finite.biUnion (Finset.finite_toSet S) fun i hi => (hfin i hi).1
  refine ⟨hF.subset hsub, (Set.ncard_le_ncard hsub hF).trans ?_⟩
  refine (Finset.set_ncard_biUnion_le S _).trans ?_
  refine (Finset.sum_le_card_nsmul S _ _ fun i hi => (hfin i hi).2).trans ?_
  rw [smul_eq_mul]
  apply Nat.mul_le_mul_right
  refine (Finset.card_le_card (hS ▸ Finset.filter_subset _ _)).trans ?_
  rw [Nat.card_Ico, hN]

end

/-! ### An honest round of the example data -/

noncomputable section

/-- The example parameters with parity checks that the example shares pass. -/
def demoQ : Params 10007 := { demoP with
  H := [[1, -1, 0, 0, 0], [0, 0, 4, -1, 0], [0, 0, 1, 0, -1]], B_smallness := 128 * 10007 }

/-- The old shares are 5 and 7, the secret `2·5-7 = 3`, the new shares 3, 1, 4, 1. -/
def demoInp : RoundInput 10007 where
  ctMat := demoCtMat
  ctVec := demoCtVec
  pt1 := demoPt1
  sk1 := demoSk
  decNoise := demoNoise2
  ct1 := demoCt1
  ct2 := demoCt2
  pt2 := demoPt2
  encRnd := demoR
  encNoise1 := demoNoise4
  encNoise2 := demoNoise4
  pkNum := 1
  sk2 := demoSk
  keyNoise := demoNoise4
  lagrange := [2, -1]

theorem demoQ_ok : ParamsOk demoQ :=
  ⟨demoP_ok.kay, demoP_ok.enn, demoP_ok.tee, demoP_ok.A, demoP_ok.B, demoP_ok.radix, demoP_ok.small⟩

theorem demoInp_honest : Honest demoQ demoInp where
  ctMat := demoCtMat_shape
  ctVec := by simp [demoInp, demoQ, demoCtVec, demoP, demoGk]
  pt1 := rfl
  sk1 := rfl
  decNoise := rfl
  decrypts := demo_decrypts
  ct1 := by simp [demoInp, demoQ, demoCt1, demoP, demoGk]
  ct2 := by simp [demoInp, demoQ, demoCt2, demoP, demoGk]
  pt2 := rfl
  encRnd := rfl
  encNoise1 := rfl
  encNoise2 := rfl
  encrypts1 := demo_encrypts1
  encrypts2 := demo_encrypts2
  sk2 := rfl
  keyNoise := rfl
  keyFor := demo_keyfor
  reshares := by
    have e : (∑ i ∈ Finset.range demoQ.gk.tee, demoInp.lagrange.getD i 0 * demoInp.pt1.getD i 0) = 3 := by
      change (∑ i ∈ Finset.range 2, ([2, -1] : List D).getD i 0 * ([5, 7] : List D).getD i 0) = 3
      decide +kernel
    rw [e]
    change ∀ y ∈ Spec.matVec ([[1, -1, 0, 0, 0], [0, 0, 4, -1, 0], [0, 0, 1, 0, -1]] : List (List D)) (3 :: [3, 1, 4, 1]),
      y = 0
    simp only [Spec.matVec, List.map_cons, List.map_nil, List.zip_cons_cons, List.zip_nil_right, List.sum_cons,
      List.sum_nil, List.mem_cons, List.not_mem_nil, or_false]
    rintro y (rfl | rfl | rfl) <;> ring

/-- The hypotheses of `C64_prepared` and of the theorems after it can be met: from the constructors, through the
commitment to a nonzero key, to the end of the five proof functions. -/
theorem demo_round (mer : demoE.St) :
    ∃ vd pd r, Reachable demoE demoQ demoInp.sk1 vd pd ∧ Start demoE demoQ demoInp.sk1 vd pd ∧
      proveRound demoE demoQ demoRnd demoTests demoSmall demoInp vd pd = .ok r := by
  obtain ⟨vd, vd', pd', h1, h2, h3, h4⟩ := C64_start demoE demoQ (fun i => (3 * i + 1 : ℕ)) (fun i => (5 * i : ℕ))
    mer demoRnd demoSk 55 rfl (by decide) (by decide)
  refine ⟨vd', pd', ?_⟩
  obtain ⟨r, hr⟩ := (C64_defined demoE_length demoQ_ok demoTests_ok demoRnd demoSmall demoInp_honest h3
    (by decide) (by decide) rfl (by decide +kernel) (by rw [h4]; decide) (by decide) (by decide +kernel)
    (by decide +kernel) (by decide +kernel) (by decide +kernel) (by decide +kernel) (by decide +kernel)).2 (by decide)
  exact ⟨r, Reachable.start _ _ mer demoRnd demoSk 55 vd vd' pd' rfl h1 h2, h3, hr⟩

example : ∃ vd pd r, Start demoE demoQ demoInp.sk1 vd pd ∧
    proveRound demoE demoQ demoRnd demoTests demoSmall demoInp vd pd = .ok r :=
  let ⟨vd, pd, r, _, h, h'⟩ := demo_round []
  ⟨vd, pd, r, h, h'⟩

/-- `C64_challenges` on two constraints and two nonzero values. -/
example : {r1 : D | ¬ GoodChallenges { demoV with linConstr := [⟨[(2600, 5), (2757, 3)], 0⟩, ⟨[(2757, 4)], 1⟩] }
    (fun i => if i = 2600 then 9 else if i = 2757 then 8 else 0) r1 2}.ncard ≤ (demoIx.w - 260 * 10) * (2 - 1) := by
  refine (C64_challenges _ _ _ (by decide) (by decide) ⟨_, List.mem_cons_self, by decide⟩
    fun i h1 h2 hx => ⟨_, List.mem_cons_self, ?_⟩).2
  by_cases e1 : i = 2600
  · subst e1; decide
  · by_cases e2 : i = 2757
    · subst e2; decide
    · exact absurd (by rw [if_neg e1, if_neg e2]) hx

end
end Verif.Props
